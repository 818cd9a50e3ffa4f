import Verif.Bse.Specific

/-!
# C98: the Bethe-Salpeter equation at one frequency
-/

noncomputable section

set_option linter.unusedSectionVars false

namespace Verif.Bse

open Verif.Parallel Verif.Fourier Verif.GfMesh Verif.Bubble Verif.Dyson

variable {d : ℕ} {n : Fin d → ℕ} [∀ i, NeZero (n i)] {o : Type} [Fintype o] [DecidableEq o]

theorem indices_nodup (m : FMesh) : m.indices.Nodup :=
  List.nodup_range.map fun i j h => by
    have h : (i : ℤ) + m.first = j + m.first := h
    omega

theorem fake_none {X α : Type} [Zero α] (m : FMesh) (l : List AnyMesh) (g : X → α) :
    fake (anyMesh m :: l) g none = .ok (⟨m.beta, .boson, 1⟩, fun w x => if w.toNat = 0 then g x else 0) := rfl

theorem fake_some {X α : Type} [Zero α] (l : List AnyMesh) (g : X → α) (b : ℝ) (hb : b ≠ 0) :
    fake l g (some b) = .ok (⟨b, .boson, 1⟩, fun w x => if w.toNat = 0 then g x else 0) := by
  simp only [fake, addFakeBosonicMesh, if_neg hb]

variable (p : Lattice n o)

/-- a consistent set of meshes -/
structure Lattice.Ok : Prop where
  ranks : 0 < p.ranks
  nodup : p.lat.Nodup
  all : ∀ r, r ∈ p.lat
  beta : p.beta ≠ 0

/-- one frequency of the bubble from imaginary time: a Fourier transform -/
def Lattice.bubbleAt (w : ℤ) : Lat n → Bubble.T4 o :=
  rToK fun r a b c d => p.four (fun t => chi0tPoint p.L p.gTr r t a b c d) w

/-- the static bubble by the trapezoidal rule -/
def Lattice.bubbleStatic : Lat n → Bubble.T4 o :=
  rToK fun r => trapz (p.beta : ℂ) p.L (chi0tPoint p.L p.gTr r)

theorem timeBubble_many (hp : p.Ok) (nw : ℕ) (save : Bool) (tail : ℤ → Lat n → Bubble.T4 o) (h1 : nw ≠ 1)
    (h : p.timeBubble nw save = .ok tail) (w : ℤ) (hw : w ∈ (p.bosons nw).indices) : tail w = p.bubbleAt w := by
  unfold Lattice.timeBubble at h
  rw [if_neg h1] at h
  by_cases hL : p.L < 2 * nw
  · rw [if_pos hL] at h
    cases h
  rw [if_neg hL] at h
  rw [← Except.ok.inj h, fourierWrToWk, C02_distributedAssign p.ranks hp.ranks _ (indices_nodup _), if_pos hw]
  unfold Lattice.bubbleAt
  congr 1
  funext r
  cases save
  · simp only [Bool.false_eq_true, if_false]
    rw [C02_distributedAssign p.ranks hp.ranks _ hp.nodup, if_pos (hp.all r)]
    funext a b c d
    congr 1
    funext t
    rw [chi0tr, C02_distributedAssign p.ranks hp.ranks _ hp.nodup, if_pos (hp.all r)]
  · simp only [if_true]
    rw [chi0wrSaving, C02_distributedAssign p.ranks hp.ranks _ hp.nodup, if_pos (hp.all r)]
    rfl

theorem timeBubble_one (hp : p.Ok) (save : Bool) (tail : ℤ → Lat n → Bubble.T4 o)
    (h : p.timeBubble 1 save = .ok tail) : tail 0 = p.bubbleStatic := by
  unfold Lattice.timeBubble at h
  rw [if_pos rfl] at h
  rw [← Except.ok.inj h, fourierWrToWk, C02_distributedAssign p.ranks hp.ranks _ (indices_nodup _), if_pos]
  · unfold Lattice.bubbleStatic
    congr 1
    funext r
    rw [if_pos rfl, chi0W0r, C02_distributedAssign p.ranks hp.ranks _ hp.nodup, if_pos (hp.all r)]
  · rw [Lattice.bosons, mem_indices_boson]
    omega

theorem chi0Wnk_eq (hp : p.Ok) (nw nwf : ℕ) (w nu : ℤ) (hw : w ∈ (p.bosons nw).indices)
    (hnu : nu ∈ (p.fermions nwf).indices) (k : Lat n) :
    p.chi0Wnk nw nwf (w, nu) k = rToK (fun r => chi0rPoint (p.beta : ℂ) p.gExt r w nu) k := by
  rw [Lattice.chi0Wnk, chi0qFromChi0r, C02_distributedAssign p.ranks hp.ranks _
    (prodMesh_nodup (indices_nodup _) (indices_nodup _)), if_pos (mem_prodMesh.2 ⟨hw, hnu⟩)]
  congr 1
  funext r
  rw [chi0rFromGr, C02_distributedAssign p.ranks hp.ranks _ hp.nodup, if_pos (hp.all r)]

theorem zero_mem_one (b : ℝ) : (0 : ℤ) ∈ (FMesh.mk b .boson 1).indices := by
  rw [mem_indices_boson]; omega

theorem chi0NkAt_eq (hp : p.Ok) (nwf : ℕ) (w : ℤ) : ∃ chi, p.chi0NkAt nwf w = .ok chi ∧
    ∀ nu ∈ (p.fermions nwf).indices, ∀ k, chi nu k = rToK (fun r => chi0rPoint (p.beta : ℂ) p.gExt r w nu) k := by
  unfold Lattice.chi0NkAt
  dsimp only
  rw [fake_none]
  refine ⟨_, rfl, fun nu hnu k => ?_⟩
  rw [chi0qFromChi0r, C02_distributedAssign p.ranks hp.ranks _ (prodMesh_nodup (indices_nodup _) (indices_nodup _)),
    if_pos (mem_prodMesh.2 ⟨zero_mem_one _, hnu⟩)]
  congr 1
  funext r
  refine (if_pos rfl).trans ?_
  rw [chi0rAtW, C02_distributedAssign p.ranks hp.ranks _ hp.nodup, if_pos (hp.all r)]

/-- the value of the last step at one point depends on one frequency only -/
def bseValue {ν : Type} [Fintype ν] [DecidableEq ν] (beta : ℂ) (tail : Bubble.T4 o) (chi0 : ν → Bubble.T4 o)
    (gamma : T6 ν o ℂ) : Bubble.T4 o :=
  traceNu beta (bsePoint (diagEmbed chi0) gamma) + (tail - fun a b c d => (∑ nu, chi0 nu a b c d) / (beta * beta))

theorem finish_eq (hp : p.Ok) (bmesh fmesh wmesh nmesh : FMesh) (tail : ℤ → Lat n → Bubble.T4 o)
    (chi0 : ℤ → ℤ → Lat n → Bubble.T4 o) (gamma : ℤ → ℤ → ℤ → Bubble.T4 o)
    (r : (Lat n × ℤ → Bubble.T4 o) × (Lat n × ℤ → Bubble.T4 o))
    (h : p.finish bmesh fmesh wmesh nmesh tail chi0 gamma = .ok r) :
    wmesh = bmesh ∧ nmesh = fmesh ∧ ∀ k, ∀ w ∈ bmesh.indices,
      r.1 (k, w) = bseValue (ν := ↥(fmesh.indices.toFinset)) (p.beta : ℂ) (tail w k) (fun nu => chi0 w nu k)
        (fun nu nu' => gamma w nu nu') ∧ r.2 (k, w) = tail w k := by
  unfold Lattice.finish at h
  split_ifs at h with h1 h2
  rw [not_or, not_not, not_not] at h2
  refine ⟨h2.1, h2.2, fun k w hw => ?_⟩
  rw [← Except.ok.inj h]
  refine ⟨?_, rfl⟩
  simp only [solveLatticeBse, chiqSumNuFromChi0qAndGamma, chi0qSumNu]
  rw [C02_distributedAssign p.ranks hp.ranks _ (prodMesh_nodup hp.nodup (indices_nodup _)),
    C02_distributedAssign p.ranks hp.ranks _ (prodMesh_nodup (indices_nodup _) hp.nodup),
    if_pos (mem_prodMesh.2 ⟨hp.all k, hw⟩), if_pos (mem_prodMesh.2 ⟨hw, hp.all k⟩)]
  rfl

theorem finish_ok (bmesh fmesh : FMesh) (tail : ℤ → Lat n → Bubble.T4 o)
    (chi0 : ℤ → ℤ → Lat n → Bubble.T4 o) (gamma : ℤ → ℤ → ℤ → Bubble.T4 o) :
    ∃ r, p.finish bmesh fmesh bmesh fmesh tail chi0 gamma = .ok r := by
  unfold Lattice.finish
  rw [if_neg (by simp), if_neg (by simp)]
  exact ⟨_, rfl⟩

/-- both drivers, evaluated -/
theorem solveAt_eq (hp : p.Ok) (bmesh fmesh : FMesh) (gamma : ℤ → ℤ → ℤ → Bubble.T4 o)
    (chi chi0 : Lat n × ℤ → Bubble.T4 o) (h : p.solve bmesh fmesh gamma = .ok (chi, chi0)) (w : ℤ)
    (hw : w ∈ bmesh.indices) : ∃ bare chik chi0k : Lat n → Bubble.T4 o, p.solveAt bmesh fmesh gamma w = .ok (chik, chi0k) ∧ ∀ k,
      chi0 (k, w) = (if bmesh.nmax = 1 then p.bubbleStatic else p.bubbleAt w) k ∧
      chi (k, w) = bare k + chi0 (k, w) ∧
      chi0k k = (if w = 0 then p.bubbleStatic else p.bubbleAt w) k ∧
      chik k = bare k + chi0k k := by
  unfold Lattice.solve at h
  dsimp only at h
  set nw := (bmesh.len + 1) / 2 with hnw
  set nwf := fmesh.len / 2 with hnwf
  cases ht : p.timeBubble nw false with
  | error e => rw [ht] at h; cases h
  | ok tail =>
    rw [ht] at h
    obtain ⟨e1, e2, hv⟩ := finish_eq p hp _ _ _ _ _ _ _ _ h
    have hn : bmesh.nmax = nw := by rw [← e1]; rfl
    have hw1 : w ∈ (p.bosons nw).indices := by rw [e1]; exact hw
    have hbd : (w.natAbs : ℤ) + 1 ≤ nw := by
      have := hw1
      rw [Lattice.bosons, mem_indices_boson] at this
      omega
    have htail : tail w = if bmesh.nmax = 1 then p.bubbleStatic else p.bubbleAt w := by
      rw [hn]
      split_ifs with h1
      · rw [h1] at ht hbd
        have : w = 0 := by omega
        rw [this]
        exact timeBubble_one p hp _ _ ht
      · exact timeBubble_many p hp nw false tail h1 ht w hw1
    -- the bubble of the other driver
    have ht2 : ∃ tail2, p.timeBubble (w.natAbs + 1) true = .ok tail2 ∧
        tail2 w = if w = 0 then p.bubbleStatic else p.bubbleAt w := by
      by_cases h0 : w = 0
      · subst h0
        have : ∃ tail2, p.timeBubble 1 true = .ok tail2 := ⟨_, if_pos rfl⟩
        obtain ⟨tail2, h2⟩ := this
        exact ⟨tail2, h2, by rw [if_pos rfl]; exact timeBubble_one p hp _ _ h2⟩
      · have h1 : w.natAbs + 1 ≠ 1 := by omega
        have hL : ¬ p.L < 2 * (w.natAbs + 1) := by
          unfold Lattice.timeBubble at ht
          rw [if_neg (by omega)] at ht
          intro hL
          rw [if_pos (by omega)] at ht
          cases ht
        have : ∃ tail2, p.timeBubble (w.natAbs + 1) true = .ok tail2 := by
          unfold Lattice.timeBubble
          rw [if_neg h1, if_neg hL]
          exact ⟨_, rfl⟩
        obtain ⟨tail2, h2⟩ := this
        refine ⟨tail2, h2, ?_⟩
        rw [if_neg h0]
        refine timeBubble_many p hp _ true tail2 h1 h2 w ?_
        rw [Lattice.bosons, mem_indices_boson]
        omega
    obtain ⟨tail2, ht2, hv2⟩ := ht2
    obtain ⟨chi0nk, hc, hcv⟩ := chi0NkAt_eq p hp nwf w
    have hfb : fmesh.beta = p.beta := by rw [← e2]; rfl
    have hsolve : ∃ r, p.solveAt bmesh fmesh gamma w = .ok (fun k => r.1 (k, 0), fun k => r.2 (k, 0)) ∧
        p.finish ⟨p.beta, .boson, 1⟩ fmesh ⟨p.beta, .boson, 1⟩ fmesh
          (fun w' k => if w'.toNat = 0 then tail2 w k else 0)
          (fun w' nu k => if w'.toNat = 0 then chi0nk nu k else 0)
          (fun w' nu nu' => if w'.toNat = 0 then gamma w nu nu' else 0) = .ok r := by
      obtain ⟨r, hr⟩ := finish_ok p ⟨p.beta, .boson, 1⟩ fmesh (fun w' k => if w'.toNat = 0 then tail2 w k else 0)
          (fun w' nu k => if w'.toNat = 0 then chi0nk nu k else 0)
          (fun w' nu nu' => if w'.toNat = 0 then gamma w nu nu' else 0)
      refine ⟨r, ?_, hr⟩
      unfold Lattice.solveAt
      rw [if_pos hw, fake_none]
      dsimp only
      rw [ht2]
      dsimp only
      rw [hfb, fake_some _ _ _ hp.beta]
      dsimp only
      rw [← hnwf, hc]
      dsimp only
      rw [fake_none]
      dsimp only
      rw [e2, hfb, hr]
    obtain ⟨r, hr1, hr2⟩ := hsolve
    obtain ⟨-, -, hrv⟩ := finish_eq p hp _ _ _ _ _ _ _ _ hr2
    refine ⟨fun k => bseValue (ν := ↥(fmesh.indices.toFinset)) (p.beta : ℂ) 0 (fun nu => p.chi0Wnk nw nwf (w, nu.1) k)
      (fun nu nu' => gamma w nu nu'), _, _, hr1, fun k => ?_⟩
    obtain ⟨a1, a2⟩ := hv k w hw
    dsimp only at a1 a2
    obtain ⟨b1, b2⟩ := hrv k 0 (zero_mem_one _)
    simp only [Int.toNat_zero, if_true] at b1 b2
    have hadd : ∀ (t : Bubble.T4 o) (c : ↥(fmesh.indices.toFinset) → Bubble.T4 o) (g : T6 _ o ℂ),
        bseValue (p.beta : ℂ) t c g = bseValue (p.beta : ℂ) 0 c g + t := by
      intro t c g
      unfold bseValue
      rw [zero_sub, add_assoc, sub_eq_add_neg, add_comm t]
    refine ⟨by rw [a2, htail], ?_, ?_, ?_⟩
    · rw [a2, a1, hadd]
    · rw [b2, hv2]
    · dsimp only
      rw [b2, b1, hadd]
      congr 2
      funext nu
      have hnu : nu.1 ∈ (p.fermions nwf).indices := by
        rw [e2]
        exact List.mem_toFinset.1 nu.2
      rw [chi0Wnk_eq p hp nw nwf w nu hw1 hnu k, hcv nu hnu k]

/-- C98: where the vertex has one frequency only, or at a nonzero frequency, the solver for one frequency returns the
susceptibility and the bubble of the full solver at that frequency. -/
theorem C98_specific_partial (hp : p.Ok) (bmesh fmesh : FMesh) (gamma : ℤ → ℤ → ℤ → Bubble.T4 o)
    (chi chi0 : Lat n × ℤ → Bubble.T4 o) (h : p.solve bmesh fmesh gamma = .ok (chi, chi0)) (w : ℤ)
    (hw : w ∈ bmesh.indices) (h0 : w ≠ 0 ∨ bmesh.nmax = 1) :
    p.solveAt bmesh fmesh gamma w = .ok (fun k => chi (k, w), fun k => chi0 (k, w)) := by
  obtain ⟨bare, chik, chi0k, e, hk⟩ := solveAt_eq p hp bmesh fmesh gamma chi chi0 h w hw
  have hbub : (if bmesh.nmax = 1 then p.bubbleStatic else p.bubbleAt w)
      = if w = 0 then p.bubbleStatic else p.bubbleAt w := by
    rcases h0 with h0 | h0
    · rw [if_neg h0, if_neg]
      intro h1
      unfold Lattice.solve at h
      dsimp only at h
      cases ht : p.timeBubble ((bmesh.len + 1) / 2) false with
      | error e => rw [ht] at h; cases h
      | ok tail =>
        rw [ht] at h
        obtain ⟨e1, -, -⟩ := finish_eq p hp _ _ _ _ _ _ _ _ h
        rw [← e1, Lattice.bosons, mem_indices_boson] at hw
        rw [← e1, Lattice.bosons] at h1
        dsimp only at h1
        rw [h1] at hw
        omega
    · rw [if_pos h0]
      unfold Lattice.solve at h
      dsimp only at h
      cases ht : p.timeBubble ((bmesh.len + 1) / 2) false with
      | error e => rw [ht] at h; cases h
      | ok tail =>
        rw [ht] at h
        obtain ⟨e1, -, -⟩ := finish_eq p hp _ _ _ _ _ _ _ _ h
        rw [← e1, Lattice.bosons, mem_indices_boson] at hw
        rw [← e1, Lattice.bosons] at h0
        dsimp only at h0
        rw [h0] at hw
        rw [if_pos (by omega)]
  have e2 : chi0k = fun k => chi0 (k, w) := by
    funext k
    obtain ⟨h1, -, h3, -⟩ := hk k
    rw [h3, h1, hbub]
  have e1 : chik = fun k => chi (k, w) := by
    funext k
    obtain ⟨-, h2, -, h4⟩ := hk k
    rw [h4, h2, e2]
  rw [e, e1, e2]

/-- C98: at zero frequency and for a vertex with several frequencies the vertex part is that of the full solver; the two
results differ by the difference of the bubbles. -/
theorem C98_zero_partial (hp : p.Ok) (bmesh fmesh : FMesh) (gamma : ℤ → ℤ → ℤ → Bubble.T4 o)
    (chi chi0 : Lat n × ℤ → Bubble.T4 o) (h : p.solve bmesh fmesh gamma = .ok (chi, chi0))
    (hw : 0 ∈ bmesh.indices) (h1 : bmesh.nmax ≠ 1) :
    ∃ chik chi0k, p.solveAt bmesh fmesh gamma 0 = .ok (chik, chi0k) ∧ ∀ k,
      chik k - chi0k k = chi (k, 0) - chi0 (k, 0) ∧
      chi0k k = rToK (fun r => trapz (p.beta : ℂ) p.L (chi0tPoint p.L p.gTr r)) k ∧
      chi0 (k, 0) = rToK (fun r a b c d => p.four (fun t => chi0tPoint p.L p.gTr r t a b c d) 0) k := by
  obtain ⟨bare, chik, chi0k, e, hk⟩ := solveAt_eq p hp bmesh fmesh gamma chi chi0 h 0 hw
  refine ⟨chik, chi0k, e, fun k => ?_⟩
  obtain ⟨a1, a2, a3, a4⟩ := hk k
  rw [if_neg h1] at a1
  rw [if_pos rfl] at a3
  exact ⟨by rw [a4, a2, add_sub_cancel_right, add_sub_cancel_right], a3, a1⟩

/-- C98: frequencies outside of the mesh of the vertex are refused, and so are vertices of another temperature, by both
drivers. -/
theorem C98_refused (hp : p.Ok) (bmesh fmesh : FMesh) (gamma : ℤ → ℤ → ℤ → Bubble.T4 o) (w : ℤ) :
    (w ∉ bmesh.indices → ∃ e, p.solveAt bmesh fmesh gamma w = .error e) ∧
    (fmesh.beta ≠ p.beta → (∃ e, p.solve bmesh fmesh gamma = .error e) ∧
      ∃ e, p.solveAt bmesh fmesh gamma w = .error e) := by
  refine ⟨fun h => ⟨_, if_neg h⟩, fun hb => ?_⟩
  have hne : ∀ nwf, p.fermions nwf ≠ fmesh := fun nwf h => hb (by rw [← h]; rfl)
  have hfin : ∀ b1 b2 nwf tail chi0 g, ∃ e, p.finish b1 fmesh b2 (p.fermions nwf) tail chi0 g = .error e := by
    intro b1 b2 nwf tail chi0 g
    cases h : p.finish b1 fmesh b2 (p.fermions nwf) tail chi0 g with
    | error e => exact ⟨e, rfl⟩
    | ok r => exact absurd (finish_eq p hp _ _ _ _ _ _ _ _ h).2.1 (hne nwf)
  constructor
  · unfold Lattice.solve
    dsimp only
    split
    · exact ⟨_, rfl⟩
    · exact hfin _ _ _ _ _ _
  · unfold Lattice.solveAt
    split_ifs
    · split
      · exact ⟨_, rfl⟩
      · dsimp only
        split
        · exact ⟨_, rfl⟩
        · split
          · exact ⟨_, rfl⟩
          · split
            · exact ⟨_, rfl⟩
            · split
              · exact ⟨_, rfl⟩
              · obtain ⟨e, he⟩ := hfin _ _ _ _ _ _
                rw [he]
                exact ⟨_, rfl⟩
    · exact ⟨_, rfl⟩

/-- C98: with meshes of the temperature of the Green's function, and a time mesh twice as long as the bosonic mesh, both
drivers return. -/
theorem C98_defined (hp : p.Ok) (nw nwf : ℕ) (hnw : 0 < nw) (hL : nw = 1 ∨ 2 * nw ≤ p.L)
    (gamma : ℤ → ℤ → ℤ → Bubble.T4 o) :
    (∃ r, p.solve ⟨p.beta, .boson, nw⟩ ⟨p.beta, .fermion, nwf⟩ gamma = .ok r) ∧
      ∀ w : ℤ, w.natAbs < nw → ∃ r, p.solveAt ⟨p.beta, .boson, nw⟩ ⟨p.beta, .fermion, nwf⟩ gamma w = .ok r := by
  have h1 : ∃ r, p.solve ⟨p.beta, .boson, nw⟩ ⟨p.beta, .fermion, nwf⟩ gamma = .ok r := by
    have ht : ∃ tail, p.timeBubble nw false = .ok tail := by
      unfold Lattice.timeBubble
      by_cases h : nw = 1
      · rw [if_pos h]
        exact ⟨_, rfl⟩
      · rw [if_neg h, if_neg (by omega)]
        exact ⟨_, rfl⟩
    obtain ⟨tail, ht⟩ := ht
    have e1 : ((FMesh.mk p.beta .boson nw).len + 1) / 2 = nw := by
      simp only [FMesh.len]
      omega
    have e2 : (FMesh.mk p.beta .fermion nwf).len / 2 = nwf := by
      simp only [FMesh.len]
      omega
    unfold Lattice.solve
    dsimp only
    rw [e1, e2, ht]
    exact finish_ok p _ _ _ _ _
  refine ⟨h1, fun w hw => ?_⟩
  obtain ⟨⟨chi, chi0⟩, h⟩ := h1
  obtain ⟨-, chik, chi0k, e, -⟩ := solveAt_eq p hp _ _ gamma chi chi0 h w (by rw [mem_indices_boson]; omega)
  exact ⟨_, e⟩

/-! ## The static bubble -/

/-- left Riemann sum of one pole -/
theorem sum_oneBoson (a : ℂ) (b beta : ℝ) (hb : b ≠ 0) (hbeta : 0 < beta) (L : ℕ) (hL : 0 < L) :
    (beta / L : ℂ) * ∑ t ∈ Finset.range L, oneBoson a b (tauOf beta L t) beta
      = -a * ((beta / L : ℝ) / (1 - Real.exp (-(b * (beta / L)))) : ℝ) := by
  have hL' : (L : ℝ) ≠ 0 := by positivity
  set h : ℝ := beta / L with hh
  have hpos : 0 < h := by positivity
  set q : ℝ := Real.exp (-(b * h)) with hq
  have hq1 : q ≠ 1 := by
    rw [hq, Ne, Real.exp_eq_one_iff, neg_eq_zero]
    exact mul_ne_zero hb hpos.ne'
  have hqL : q ^ L = Real.exp (-beta * b) := by
    rw [hq, ← Real.exp_nat_mul]
    congr 1
    rw [hh]
    field_simp
  have hqL1 : Real.exp (-beta * b) - 1 ≠ 0 := by
    rw [sub_ne_zero, Ne, Real.exp_eq_one_iff]
    exact mul_ne_zero (neg_ne_zero.2 hbeta.ne') hb
  have hterm : ∀ t : ℕ, oneBoson a b (tauOf beta L t) beta = a * ((q ^ t / (Real.exp (-beta * b) - 1) : ℝ) : ℂ) := by
    intro t
    rw [oneBoson_eq a b _ beta hb hbeta]
    have e : q ^ t = Real.exp (-b * tauOf beta L t) := by
      rw [hq, ← Real.exp_nat_mul]
      congr 1
      rw [tauOf, hh]
      field_simp
    rw [e]
  rw [Finset.sum_congr rfl fun t _ => hterm t, ← Finset.mul_sum, ← Complex.ofReal_sum, ← Finset.sum_div,
    geom_sum_eq hq1, hqL]
  rw [show (beta / L : ℂ) = ((h : ℝ) : ℂ) by rw [hh]; push_cast; rfl]
  rw [mul_left_comm, ← Complex.ofReal_mul, neg_mul a, ← mul_neg, ← Complex.ofReal_neg]
  congr 2
  have hq1' : q - 1 ≠ 0 := sub_ne_zero.2 hq1
  have hq1'' : 1 - q ≠ 0 := sub_ne_zero.2 hq1.symm
  rw [div_div, mul_comm (q - 1), ← div_div, div_self hqL1]
  field_simp
  ring

/-- `h coth (h / 2) > 2` -/
theorem coth_gt (h : ℝ) (hh : 0 < h) :
    2 < h / (1 - Real.exp (-h)) - h / (1 - Real.exp h) := by
  have h1 : 1 + h < Real.exp h := by linarith [Real.add_one_lt_exp hh.ne']
  set e := Real.exp h with he
  have he1 : 0 < e - 1 := by linarith
  have heq : h / (1 - Real.exp (-h)) - h / (1 - e) = h * (e + 1) / (e - 1) := by
    rw [Real.exp_neg, ← he]
    have : (1 : ℝ) - e ≠ 0 := by linarith
    have h3 : (1 : ℝ) - e⁻¹ ≠ 0 := by
      rw [sub_ne_zero, ne_comm, Ne, inv_eq_one]
      linarith
    have h4 : e ≠ 0 := (Real.exp_pos h).ne'
    have h5 : (1 : ℝ) - e⁻¹ = (e - 1) / e := by field_simp
    rw [h5, show (1 : ℝ) - e = -(e - 1) by ring]
    field_simp
    ring
  rw [heq, lt_div_iff₀ he1]
  -- `(h - 2) e^h + h + 2` increases from zero
  have hd : ∀ x : ℝ, HasDerivAt (fun x => (x - 2) * Real.exp x + x + 2) ((x - 1) * Real.exp x + 1) x := by
    intro x
    have := ((((hasDerivAt_id x).sub_const 2).mul (Real.hasDerivAt_exp x)).add (hasDerivAt_id x)).add_const 2
    refine this.congr_deriv ?_
    change (1 : ℝ) * Real.exp x + (x - 2) * Real.exp x + 1 = _
    ring
  have hm : StrictMonoOn (fun x : ℝ => (x - 2) * Real.exp x + x + 2) (Set.Ici 0) := by
    refine strictMonoOn_of_deriv_pos (convex_Ici 0) (fun x _ => (hd x).continuousAt.continuousWithinAt) fun x hx => ?_
    rw [interior_Ici, Set.mem_Ioi] at hx
    rw [(hd x).deriv]
    have h2 : -x + 1 < Real.exp (-x) := Real.add_one_lt_exp (by linarith)
    have h3 : Real.exp (-x) * Real.exp x = 1 := by rw [← Real.exp_add, neg_add_cancel, Real.exp_zero]
    nlinarith [Real.exp_pos x]
  have h4 := hm (Set.mem_Ici.2 le_rfl) (Set.mem_Ici.2 hh.le) hh
  simp only [Real.exp_zero] at h4
  rw [← he] at h4
  linarith

/-- The Fourier transform and the trapezoidal rule for a function with equal values at the ends and a jump of the first
derivative. -/
theorem static_diff (beta : ℝ) (hbeta : 0 < beta) (L N : ℕ) (hL : 0 < L) (m2 : ℂ) (x : ℕ → ℂ) (hx : x 0 = x L)
    (y : ℤ → ℂ) (hy : tauToW .boson beta L N m2 0 x = .ok y) :
    y 0 = trapz (beta : ℂ) L x + m2 / 2 * (((beta / L) / (1 - Real.exp (-(beta / L)))
      - (beta / L) / (1 - Real.exp (beta / L)) - 2 : ℝ) : ℂ) := by
  unfold tauToW at hy
  split_ifs at hy with h
  rw [← Except.ok.inj hy]
  dsimp only
  have hm1 : firstMoment .boson (x 0) (x L) = 0 := by simp [firstMoment, hx]
  rw [hm1]
  have hw : wrap L 0 = 0 := by simp [wrap]
  have ht : ∀ t, tailT .boson 0 m2 0 beta (tauOf beta L t)
      = oneBoson (-(m2 / 2)) (-1) (tauOf beta L t) beta + oneBoson (m2 / 2) 1 (tauOf beta L t) beta := by
    intro t
    simp [tailT, Fin.sum_univ_three, poleA, poleB, oneBoson]
  have hs : (beta / L : ℂ) * ∑ t ∈ Finset.range L, tailT .boson 0 m2 0 beta (tauOf beta L t)
      = m2 / 2 * (((beta / L) / (1 - Real.exp (beta / L)) - (beta / L) / (1 - Real.exp (-(beta / L))) : ℝ) : ℂ) := by
    rw [Finset.sum_congr rfl fun t _ => ht t, Finset.sum_add_distrib, mul_add,
      sum_oneBoson _ _ _ (by norm_num) hbeta L hL, sum_oneBoson _ _ _ one_ne_zero hbeta L hL]
    rw [show -(-1 * (beta / L)) = beta / L by ring, one_mul]
    push_cast
    ring
  have h0 : tailW .boson 0 m2 0 (matsubara .boson beta 0) = -m2 := by
    simp [tailW, Fin.sum_univ_three, poleA, poleB, matsubara]
    ring
  rw [fftw1, hw, h0]
  simp only [Nat.cast_zero, mul_zero, zero_div, Complex.exp_zero, one_mul, shiftPhase]
  rw [← Finset.mul_sum, Finset.sum_sub_distrib, mul_sub, hs, trapz, Finset.sum_range_succ, ← hx]
  simp only [smul_eq_mul]
  push_cast
  ring

instance : Unique (Lat fun _ : Fin 1 => 1) where
  default := 0
  uniq _ := funext fun _ => Subsingleton.elim (α := Fin 1) _ _

theorem rToK_single {E : Type*} [AddCommGroup E] [Module ℂ E] (f : Lat (fun _ : Fin 1 => 1) → E) : rToK f 0 = f 0 := by
  rw [rToK, fftw, Fintype.sum_unique]
  change Complex.exp _ • f 0 = f 0
  have : ∀ z : ℂ, z = 0 → Complex.exp z • f 0 = f 0 := by
    intro z hz
    rw [hz, Complex.exp_zero, one_smul]
  exact this _ (by simp)

/-- C98, the static susceptibility: for every Green's function with one orbital and one site, and transforms like those of
the library, the bubbles of the two drivers differ at zero frequency if the first derivative of the bubble jumps (`m2`; the
jump of the second derivative vanishes by symmetry), and so do the susceptibilities. -/
theorem C98_static_violated (p : Lattice (fun _ : Fin 1 => 1) Unit) (hp : p.Ok) (hb : 0 < p.beta) (mom : (ℕ → ℂ) → ℂ × ℂ)
    (hfour : ∀ x, tauToW .boson p.beta p.L 2 (mom x).1 (mom x).2 x = .ok (p.four x))
    (hm2 : (mom fun t => chi0tPoint p.L p.gTr 0 t () () () ()).1 ≠ 0)
    (hm3 : (mom fun t => chi0tPoint p.L p.gTr 0 t () () () ()).2 = 0)
    (fmesh : FMesh) (gamma : ℤ → ℤ → ℤ → Bubble.T4 Unit) (chi chi0 : Lat (fun _ : Fin 1 => 1) × ℤ → Bubble.T4 Unit)
    (h : p.solve ⟨p.beta, .boson, 2⟩ fmesh gamma = .ok (chi, chi0)) :
    ∃ chik chi0k, p.solveAt ⟨p.beta, .boson, 2⟩ fmesh gamma 0 = .ok (chik, chi0k) ∧
      chi0k 0 ≠ chi0 (0, 0) ∧ chik 0 ≠ chi (0, 0) := by
  have hw : (0 : ℤ) ∈ (FMesh.mk p.beta .boson 2).indices := by rw [mem_indices_boson]; omega
  obtain ⟨chik, chi0k, e, hk⟩ := C98_zero_partial p hp _ fmesh gamma chi chi0 h hw (by norm_num)
  refine ⟨chik, chi0k, e, ?_⟩
  obtain ⟨h1, h2, h3⟩ := hk 0
  set x := fun t => chi0tPoint p.L p.gTr 0 t () () () () with hx
  have hL : 0 < p.L := by
    by_contra hL
    have := hfour x
    unfold tauToW at this
    rw [if_pos (by omega)] at this
    cases this
  have hsym : x 0 = x p.L := by
    simp only [hx, chi0tPoint, Nat.sub_zero, Nat.sub_self, neg_zero]
    ring
  have hne : chi0k 0 ≠ chi0 (0, 0) := by
    rw [h2, h3]
    intro hc
    rw [rToK_single, rToK_single] at hc
    have hd := static_diff p.beta hb p.L 2 hL (mom x).1 x hsym (p.four x) (by rw [← hm3]; exact hfour x)
    have hc' : trapz (p.beta : ℂ) p.L x = p.four x 0 := by
      have := congrFun (congrFun (congrFun (congrFun hc ()) ()) ()) ()
      rw [← this]
      simp only [trapz, Pi.smul_apply, Pi.sub_apply, Finset.sum_apply, hx]
    rw [← hc', left_eq_add, mul_eq_zero] at hd
    rcases hd with hd | hd
    · exact hm2 (by linear_combination 2 * hd)
    · rw [Complex.ofReal_eq_zero] at hd
      have hgt := coth_gt (p.beta / p.L) (by positivity)
      linarith
  refine ⟨hne, fun hc => hne ?_⟩
  rw [hc] at h1
  exact (sub_right_injective h1)

/-- a Green's function on one site with values `1` and `1 / 2` at the ends and inside of the time mesh -/
def oneSite : Lattice (fun _ : Fin 1 => 1) Unit where
  ranks := 2
  lat := [0]
  beta := 1
  freqs := [0]
  g := fun _ _ _ _ => 1
  L := 4
  toTau := fun x t => x 0 * if t = 0 ∨ t = 4 then 1 else 1 / 2
  four := fun x => match tauToW .boson 1 4 2 (x 1 - x 0) 0 x with
    | .ok y => y
    | .error _ => 0
  ext := fun x => x

theorem oneSite_ok : oneSite.Ok where
  ranks := by norm_num [oneSite]
  nodup := List.nodup_singleton _
  all := fun r => by
    rw [Subsingleton.elim r 0]
    exact List.mem_singleton_self _
  beta := one_ne_zero

/-- the hypotheses of `C98_specific_partial` and of `C98_static_violated` hold -/
example : ∃ fmesh gamma chi chi0,
    oneSite.solve ⟨1, .boson, 2⟩ fmesh gamma = .ok (chi, chi0) ∧
    (1 : ℤ) ∈ (FMesh.mk 1 .boson 2).indices ∧
    ∃ mom : (ℕ → ℂ) → ℂ × ℂ, (∀ x, tauToW .boson oneSite.beta oneSite.L 2 (mom x).1 (mom x).2 x = .ok (oneSite.four x)) ∧
      (mom fun t => chi0tPoint oneSite.L oneSite.gTr 0 t () () () ()).1 ≠ 0 ∧
      (mom fun t => chi0tPoint oneSite.L oneSite.gTr 0 t () () () ()).2 = 0 := by
  obtain ⟨⟨chi, chi0⟩, h⟩ := (C98_defined oneSite oneSite_ok 2 1 (by norm_num) (Or.inr le_rfl) 1).1
  refine ⟨⟨1, .fermion, 1⟩, 1, chi, chi0, h, by rw [mem_indices_boson]; omega, fun x => (x 1 - x 0, 0), fun x => ?_, ?_, rfl⟩
  · unfold oneSite
    dsimp only
    unfold tauToW
    rw [if_neg (by norm_num)]
  · have hg : ∀ t : ℕ, oneSite.gTr t 0 () () = if t = 0 ∨ t = 4 then 1 else 1 / 2 := by
      intro t
      have h1 : oneSite.gWr 0 0 () () = 1 := by
        have hf : oneSite.freqs = [0] := rfl
        rw [Lattice.gWr, fourierWkToWr, hf, C02_distributedAssign _ oneSite_ok.ranks _ (List.nodup_singleton _),
          if_pos (List.mem_singleton_self _), kToR, fftw, Fintype.sum_unique]
        simp [oneSite]
      change oneSite.gWr 0 0 () () * _ = _
      rw [h1, one_mul]
    have hL : oneSite.L = 4 := rfl
    simp only [chi0tPoint, neg_zero, hg, hL]
    norm_num

end Verif.Bse
