import Verif.Supercell.Hf
import Verif.Gw.SolverProps

/-!
# C128: the unit cell in the GW solver
-/

set_option linter.unusedSectionVars false

noncomputable section

namespace Verif.Supercell

open Verif.Fourier Verif.Parallel Verif.Bubble Verif.Gw Verif.Rpa Verif.Dyson Matrix Classical

variable {d d' : ℕ} {n : Fin d → ℕ} {m : Fin d' → ℕ} [∀ i, NeZero (n i)] [∀ i, NeZero (m i)] {o O : Type} [Fintype o]
  [DecidableEq o] [Fintype O] [DecidableEq O] {c : Cell n m o O} {s : Setoid o}

/-! ## Functions of momentum -/

/-- the same function of lattice vectors and two orbitals -/
def UpOf (c : Cell n m o O) (f : Lat n → o → o → ℂ) (f' : Lat m → O → O → ℂ) : Prop :=
  ∀ R x y, kToR f' R x y = kToR f (c.emb R + c.pos x - c.pos y) (c.orb x) (c.orb y)

theorem kToR_of (f : Lat n → o → o → ℂ) (r : Lat n) (a b : o) : kToR (fun k => Matrix.of (f k)) r a b = kToR f r a b := by
  rw [kToR_entry, kToR_entry2]
  rfl

theorem upOf_iff {f : Lat n → o → o → ℂ} {f' : Lat m → O → O → ℂ} :
    UpOf c f f' ↔ (fun K => Matrix.of (f' K)) = c.up fun k => Matrix.of (f k) := by
  constructor
  · intro h
    have h1 : kToR (fun K => Matrix.of (f' K)) = kToR (c.up fun k => Matrix.of (f k)) := by
      funext R
      ext x y
      rw [c.kToR_up, kToR_of, h R x y]
      exact (kToR_of f _ _ _).symm
    have h2 := congrArg rToK h1
    rw [rToK_kToR, rToK_kToR] at h2
    exact h2
  · intro h R x y
    rw [← kToR_of f', h, c.kToR_up]
    exact kToR_of f _ _ _

theorem UpOf.add {f g : Lat n → o → o → ℂ} {f' g' : Lat m → O → O → ℂ} (hf : UpOf c f f') (hg : UpOf c g g') :
    UpOf c (fun k => f k + g k) fun K => f' K + g' K := by
  intro R x y
  rw [Cell.kToR_add', Cell.kToR_add']
  exact congrArg₂ (· + ·) (hf R x y) (hg R x y)

theorem UpOf.zero : UpOf c (fun _ => 0) fun _ => 0 := by
  intro R x y
  rw [kToR_entry2, kToR_entry2]
  simp [kToR, fftw]

/-! ## The same problem in another cell -/

/-- the solver with an interaction within the atoms and a fixed chemical potential; the transforms in time may be any -/
structure CellGw (c : Cell n m o O) (s : Setoid o) (U : Bubble.T4 o) (p : SolverParams n o) (p' : SolverParams m O) : Prop where
  atoms : Atoms c s
  onsite : Onsite s U
  good : GoodMeshes p
  good' : GoodMeshes p'
  freqs : p'.freqs = p.freqs
  bfreqs : p'.bfreqs = p.bfreqs
  nw : p'.nw = p.nw
  L : p'.L = p.L
  beta : p'.beta = p.beta
  val : p'.val = p.val
  pieces : p'.pieces = p.pieces
  boseFreq : p'.boseFreq = p.boseFreq
  e : p'.e = c.up p.e
  V : p.V = fun _ => U
  V' : p'.V = fun _ => place c s U
  nFix : p.nFix = 0
  nFix' : p'.nFix = 0
  dens : ∃ l : (ℤ → ℂ) →ₗ[ℂ] ℂ, p.pieces.dens = l
  wToTau : ∀ t, p.pieces.wToTau (fun _ => 0) t = 0
  toFreq : ∀ w, p.pieces.toFreq (fun _ => 0) w = 0

variable {U : Bubble.T4 o} {p : SolverParams n o} {p' : SolverParams m O} {g : G n o} {g' : G m O}

/-- the density of orbitals, between lattice vectors -/
theorem rho_cell (h : CellGw c s U p p') (hg : ∀ w, UpOf c (g w) (g' w)) (R : Lat m) (x y : O) :
    p'.rhoR g' R x y = p.rhoR g (c.emb R + c.pos y - c.pos x) (c.orb x) (c.orb y) := by
  obtain ⟨l, hl⟩ := h.dens
  unfold SolverParams.rhoR
  rw [rhoK_eq h.good, rhoK_eq h.good', kToR_entry2, kToR_entry2]
  unfold rhoSpec
  rw [h.pieces, hl]
  have key : ∀ {d : ℕ} {n : Fin d → ℕ} [∀ i, NeZero (n i)] (f : ℤ → Lat n → ℂ) (r : Lat n),
      kToR (fun k => l fun w => f w k) r = l fun w => kToR (f w) r := by
    intro d n _ f r
    rw [kToR_lin]
    have e : (fun w => kToR (f w) r) = ∑ x, ((Fintype.card (Lat n) : ℂ)⁻¹ * ker (-x) r) • fun w => f w x := by
      funext w
      rw [kToR_lin, Finset.sum_apply]
      rfl
    rw [e, map_sum]
    simp only [map_smul]
  rw [key, key]
  congr 1
  funext w
  have := hg w R y x
  rw [kToR_entry2, kToR_entry2] at this
  exact this

theorem gTime_cell (h : CellGw c s U p p') (hg : ∀ w, UpOf c (g w) (g' w)) (t : ℕ) :
    gTimeSpace p' g' t = c.fold (gTimeSpace p g t) := by
  funext R x y
  unfold gTimeSpace
  rw [h.pieces]
  change _ = p.pieces.gToTau (fun w => kToR (fun k => g w k (c.orb x) (c.orb y)) (c.emb R + c.pos x - c.pos y)) t
  congr 1
  funext w
  have := hg w R x y
  rw [kToR_entry2, kToR_entry2] at this
  exact this

theorem pol_cell (h : CellGw c s U p p') (hg : ∀ w, UpOf c (g w) (g' w)) (w : ℤ) :
    PairOf c s (p.polarization g w) (p'.polarization g' w) := by
  intro R x y z u h1 h2
  have e1 : c.emb R + c.pos u - c.pos x = c.emb R + c.pos z - c.pos x := by rw [h2.1]
  have e2 : c.emb (-R) + c.pos y - c.pos z = -(c.emb R + c.pos z - c.pos x) := by rw [map_neg, h1.1]; abel
  by_cases hnw : p.nw = 1
  · have hneg : ∀ {d : ℕ} {n : Fin d → ℕ} [∀ i, NeZero (n i)] {o : Type} (f : Lat n → Bubble.T4 o) (r : Lat n),
        kToR (fun k => -f k) r = -kToR f r := by
      intro d n _ o f r
      simp only [kToR_lin, smul_neg, Finset.sum_neg_distrib]
    have hpos : kToR (p'.chi0 g' w) R x y z u
        = kToR (p.chi0 g w) (c.emb R + c.pos z - c.pos x) (c.orb x) (c.orb y) (c.orb z) (c.orb u) := by
      unfold SolverParams.chi0
      rw [if_pos hnw, if_pos (h.nw.trans hnw)]
      by_cases hw : w = 0
      · rw [if_pos hw, if_pos hw, kToR_rToK, kToR_rToK, gTr_eq, gTr_eq]
        have e : gTimeSpace p' g' = fun t => c.fold (gTimeSpace p g t) := funext fun t => gTime_cell h hg t
        rw [e, h.beta, h.L]
        exact (C128_bubble h.good.ranks h.good'.ranks p.beta p.L ⟨h.good.lat.1, h.good.lat.2⟩ ⟨h.good'.lat.1, h.good'.lat.2⟩
          (fun _ _ => 0) (gTimeSpace p g) (fun _ _ => 0) R h1.1 h2.1).2.1
      · rw [if_neg hw, if_neg hw]
        exact PairOf.zero (c := c) (s := s) R x y z u h1 h2
    unfold SolverParams.polarization
    rw [hneg, hneg]
    exact congrArg Neg.neg hpos
  · rw [kToR_entry4, kToR_entry4]
    simp only [polarization_eq h.good hnw, polarization_eq h.good' (h.nw ▸ hnw)]
    unfold polSpec
    have hneg : ∀ {d : ℕ} {n : Fin d → ℕ} [∀ i, NeZero (n i)] (f : Lat n → ℂ) (r : Lat n),
        kToR (fun k => -rToK f k) r = -f r := by
      intro d n _ f r
      have : kToR (rToK f) r = f r := by rw [kToR_rToK]
      rw [← this]
      simp only [kToR_lin, smul_neg, Finset.sum_neg_distrib]
    rw [hneg, hneg, h.boseFreq, h.L]
    congr 2
    funext t
    rw [gTime_cell h hg, gTime_cell h hg]
    unfold Cell.fold
    rw [e1, e2]

theorem screened_paired {chi V : Bubble.T4 O} {r : O → O → Prop} (hV : Paired r V) (hu : IsUnit (1 - pairMat chi * pairMat V).det) :
    Paired r (screenedOptPoint chi V) := by
  rw [C17_paths_agree]
  intro a b e f h
  constructor
  · by_contra hn
    refine h ?_
    change (pairMat V * (1 - pairMat chi * pairMat V)⁻¹) (a, b) (e, f) = 0
    rw [Matrix.mul_apply]
    refine Finset.sum_eq_zero fun q _ => ?_
    rw [show pairMat V (a, b) q = 0 from by_contra fun h0 => hn (hV _ _ _ _ h0).1, zero_mul]
  · by_contra hn
    refine h ?_
    change pairMat (screenedBubblePoint chi V) (a, b) (e, f) = 0
    rw [screenedBubble_push _ _ hu, Matrix.mul_apply]
    refine Finset.sum_eq_zero fun q _ => ?_
    rw [show pairMat V q (e, f) = 0 from by_contra fun h0 => hn (hV _ _ _ _ h0).2, mul_zero]

/-- what has to be inverted -/
def Invertible' (spinless : Bool) (p : SolverParams n o) (g : G n o) : Prop :=
  ∀ w k, IsUnit (1 - pairMat ((if spinless then (2 : ℂ) else 1) • p.polarization g w k) * pairMat (p.V k)).det

theorem screened_cell (h : CellGw c s U p p') (hg : ∀ w, UpOf c (g w) (g' w)) (spinless : Bool) (hu : Invertible' spinless p g) :
    (∀ w, PairOf c s (fun k => p.wDyn (p.screened spinless (p.polarization g)) (w, k))
        fun K => p'.wDyn (p'.screened spinless (p'.polarization g')) (w, K)) ∧
      (∀ w, PairOf c s (fun k => p.screened spinless (p.polarization g) (w, k))
        fun K => p'.screened spinless (p'.polarization g') (w, K)) ∧
      (∀ w k, Paired s.r (p.wDyn (p.screened spinless (p.polarization g)) (w, k))) ∧
      ∀ w K, Paired (Near c s) (p'.wDyn (p'.screened spinless (p'.polarization g')) (w, K)) := by
  set z : ℂ := if spinless then 2 else 1 with hz
  have hchi := fun w => (pol_cell h hg w).smul z
  have key := fun w => screened_pairOf h.atoms (hchi w) (place_pairOf h.atoms h.onsite) (fun _ => onsite_paired h.onsite)
    (fun _ => place_paired U) fun k => by
      have := hu w k
      rw [h.V] at this
      exact this
  have hzero : ∀ {o : Type} (r : o → o → Prop), Paired r (0 : Bubble.T4 o) := fun r a b e f h0 => absurd rfl h0
  have hsub : ∀ {o : Type} {r : o → o → Prop} {A B : Bubble.T4 o}, Paired r A → Paired r B → Paired r (A - B) := by
    intro o r A B hA hB a b e f h0
    by_cases hA0 : A a b e f = 0
    · refine hB a b e f fun hB0 => h0 ?_
      change A a b e f - B a b e f = 0
      rw [hA0, hB0, sub_zero]
    · exact hA a b e f hA0
  have e1 : ∀ w k, p.screened spinless (p.polarization g) (w, k)
      = if w ∈ p.bfreqs then screenedBubblePoint (z • p.polarization g w k) U else 0 := fun w k => by
    rw [screened_eq h.good, h.V, C17_paths_agree]
  have e2 : ∀ w K, p'.screened spinless (p'.polarization g') (w, K)
      = if w ∈ p.bfreqs then screenedBubblePoint (z • p'.polarization g' w K) (place c s U) else 0 := fun w k => by
    rw [screened_eq h.good', h.V', h.bfreqs, C17_paths_agree]
  have hW : ∀ w, PairOf c s (fun k => p.screened spinless (p.polarization g) (w, k))
      fun K => p'.screened spinless (p'.polarization g') (w, K) := by
    intro w
    simp only [e1, e2]
    exact (key w).1.ite _
  have hp : ∀ w k, Paired s.r (p.screened spinless (p.polarization g) (w, k)) := by
    intro w k
    rw [e1]
    by_cases hw : w ∈ p.bfreqs
    · rw [if_pos hw, ← C17_paths_agree]
      refine screened_paired (onsite_paired h.onsite) ?_
      have := hu w k
      rw [h.V] at this
      exact this
    · rw [if_neg hw]
      exact hzero _
  have hp' : ∀ w K, Paired (Near c s) (p'.screened spinless (p'.polarization g') (w, K)) := by
    intro w K
    rw [e2]
    by_cases hw : w ∈ p.bfreqs
    · rw [if_pos hw, ← C17_paths_agree]
      exact screened_paired (place_paired U) ((key w).2.1 K)
    · rw [if_neg hw]
      exact hzero _
  refine ⟨fun w => ?_, hW, fun w k => ?_, fun w K => ?_⟩
  · simp only [wDyn_eq h.good, wDyn_eq h.good', h.bfreqs, h.V, h.V']
    by_cases hw : w ∈ p.bfreqs
    · simp only [if_pos hw]
      exact (hW w).sub (place_pairOf h.atoms h.onsite)
    · simp only [if_neg hw]
      exact hW w
  · rw [wDyn_eq h.good, h.V]
    by_cases hw : w ∈ p.bfreqs
    · rw [if_pos hw]
      exact hsub (hp w k) (onsite_paired h.onsite)
    · rw [if_neg hw]
      exact hp w k
  · rw [wDyn_eq h.good', h.V', h.bfreqs]
    by_cases hw : w ∈ p.bfreqs
    · rw [if_pos hw]
      exact hsub (hp' w K) (place_paired U)
    · rw [if_neg hw]
      exact hp' w K

/-! ## The dynamic self-energy -/

theorem sum_nearXY (ha : Atoms c s) (x y : O) (F : o → o → ℂ) :
    (∑ z, ∑ u, if Near c s x z ∧ Near c s y u then F (c.orb z) (c.orb u) else 0)
      = ∑ z, ∑ u, if s.r (c.orb x) z ∧ s.r (c.orb y) u then F z u else 0 := by
  have h : ∀ {P R : Prop} (t : ℂ), (if P ∧ R then t else 0) = if P then if R then t else 0 else 0 := by
    intro P R t
    by_cases hP : P <;> by_cases hR : R <;> simp [hP, hR]
  simp only [h, pull_if]
  rw [← sum_near ha x fun z => ∑ u, if s.r (c.orb y) u then F z u else 0]
  refine Finset.sum_congr rfl fun z _ => ?_
  congr 1
  rw [← sum_near ha y fun u => F (c.orb z) u]

theorem kToR_paired {r : o → o → Prop} {W : Lat n → Bubble.T4 o} (h : ∀ k, Paired r (W k)) (x : Lat n) : Paired r (kToR W x) := by
  intro a b e f h0
  by_contra hn
  refine h0 ?_
  rw [kToR_entry4, kToR_lin]
  refine Finset.sum_eq_zero fun k _ => ?_
  rw [show W k a b e f = 0 from by_contra fun h1 => hn (h k _ _ _ _ h1), smul_zero]

/-- The self-energy of an interaction that is known between two atoms: the sum in the code reaches only the orbitals of these. -/
theorem dyn_core (h : CellGw c s U p p') (hg : ∀ w, UpOf c (g w) (g' w)) {W : ℤ × Lat n → Bubble.T4 o} {W' : ℤ × Lat m → Bubble.T4 O}
    (hW : ∀ w k, Paired s.r (W (w, k))) (hW' : ∀ w K, Paired (Near c s) (W' (w, K))) (R : Lat m) (x y : O) (r : Lat n)
    (hr : ∀ w z u, Near c s x z → Near c s y u →
      kToR (fun K => W' (w, K)) R x z u y = kToR (fun k => W (w, k)) r (c.orb x) (c.orb z) (c.orb u) (c.orb y)) (w : ℤ) :
    kToR (p'.sigmaDyn W' g' w) R x y
      = p.pieces.toFreq (fun t => if t ≤ p.L then ∑ a, ∑ b, -p.pieces.wToTau (fun w => kToR (fun k => W (w, k)) r (c.orb x) a b (c.orb y)) t
        * gTimeSpace p g t (c.emb R + c.pos x - c.pos y) a b else 0) w := by
  have e0 : ∀ t (S : Lat m), distributedAssign p'.ranks ((List.range (p'.L + 1)).product p'.lat)
      (fun x : ℕ × Lat m => gwPoint (fun a b c d => p'.pieces.wToTau (fun w => kToR (fun k => W' (w, k)) x.2 a b c d) x.1) (p'.gTr g' x.1 x.2))
        (t, S) = if t ≤ p.L then gwPoint (fun a b c d => p'.pieces.wToTau (fun w => kToR (fun k => W' (w, k)) S a b c d) t)
          (p'.gTr g' t S) else 0 := by
    intro t S
    have hnd : ((List.range (p'.L + 1)).product p'.lat).Nodup := List.Nodup.product List.nodup_range h.good'.lat.1
    rw [C02_distributedAssign _ h.good'.ranks _ hnd]
    have hmem : (t, S) ∈ (List.range (p'.L + 1)).product p'.lat ↔ t ≤ p.L := by
      rw [List.pair_mem_product, List.mem_range, h.L]
      simp [h.good'.lat.2 S]
    simp only [hmem]
  have e1 : p'.sigmaDyn W' g' w = rToK fun S a b => p'.pieces.toFreq (fun t => (if t ≤ p.L then
      gwPoint (fun a b c d => p'.pieces.wToTau (fun w => kToR (fun k => W' (w, k)) S a b c d) t) (p'.gTr g' t S) else 0) a b) w := by
    unfold SolverParams.sigmaDyn
    dsimp only
    simp only [e0]
  rw [e1, kToR_rToK, h.pieces]
  congr 1
  funext t
  by_cases ht : t ≤ p.L
  · rw [if_pos ht, if_pos ht]
    change (∑ z, ∑ u, -p.pieces.wToTau (fun w => kToR (fun k => W' (w, k)) R x z u y) t * p'.gTr g' t R z u) = _
    rw [gTr_eq, gTime_cell h hg]
    have new : ∀ z u, -p.pieces.wToTau (fun w => kToR (fun k => W' (w, k)) R x z u y) t * c.fold (gTimeSpace p g t) R z u
        = if Near c s x z ∧ Near c s y u then
          -p.pieces.wToTau (fun w => kToR (fun k => W (w, k)) r (c.orb x) (c.orb z) (c.orb u) (c.orb y)) t
            * gTimeSpace p g t (c.emb R + c.pos x - c.pos y) (c.orb z) (c.orb u) else 0 := by
      intro z u
      by_cases hn : Near c s x z ∧ Near c s y u
      · rw [if_pos hn]
        unfold Cell.fold
        rw [hn.1.1, hn.2.1]
        simp only [hr _ z u hn.1 hn.2]
      · rw [if_neg hn]
        have : ∀ w, kToR (fun k => W' (w, k)) R x z u y = 0 := fun w => by_contra fun h0 =>
          hn ⟨(kToR_paired (hW' w) R _ _ _ _ h0).1, (kToR_paired (hW' w) R _ _ _ _ h0).2.symm⟩
        simp only [this]
        rw [h.wToTau, neg_zero, zero_mul]
    have old : ∀ a b, -p.pieces.wToTau (fun w => kToR (fun k => W (w, k)) r (c.orb x) a b (c.orb y)) t
          * gTimeSpace p g t (c.emb R + c.pos x - c.pos y) a b
        = if s.r (c.orb x) a ∧ s.r (c.orb y) b then -p.pieces.wToTau (fun w => kToR (fun k => W (w, k)) r (c.orb x) a b (c.orb y)) t
          * gTimeSpace p g t (c.emb R + c.pos x - c.pos y) a b else 0 := by
      intro a b
      by_cases hn : s.r (c.orb x) a ∧ s.r (c.orb y) b
      · rw [if_pos hn]
      · rw [if_neg hn]
        have : ∀ w, kToR (fun k => W (w, k)) r (c.orb x) a b (c.orb y) = 0 := fun w => by_contra fun h0 =>
          hn ⟨(kToR_paired (hW w) r _ _ _ _ h0).1, s.symm (kToR_paired (hW w) r _ _ _ _ h0).2⟩
        simp only [this]
        rw [h.wToTau, neg_zero, zero_mul]
    simp only [new]
    rw [sum_nearXY h.atoms x y fun a b => -p.pieces.wToTau (fun w => kToR (fun k => W (w, k)) r (c.orb x) a b (c.orb y)) t
          * gTimeSpace p g t (c.emb R + c.pos x - c.pos y) a b]
    exact Finset.sum_congr rfl fun a _ => Finset.sum_congr rfl fun b _ => (old a b).symm
  · rw [if_neg ht, if_neg ht]
    rfl

/-- the self-energy in the old cell, between lattice vectors -/
theorem dyn_old (h : CellGw c s U p p') (W : ℤ × Lat n → Bubble.T4 o) (g : G n o) (w : ℤ) (r : Lat n) (a b : o) :
    kToR (p.sigmaDyn W g w) r a b = p.pieces.toFreq (fun t => if t ≤ p.L then ∑ e, ∑ f,
      -p.pieces.wToTau (fun w => kToR (fun k => W (w, k)) r a e f b) t * gTimeSpace p g t r e f else 0) w := by
  have e1 : p.sigmaDyn W g w = rToK fun S a b => p.pieces.toFreq (fun t => (if t ≤ p.L then
      gwPoint (fun a b c d => p.pieces.wToTau (fun w => kToR (fun k => W (w, k)) S a b c d) t) (p.gTr g t S) else 0) a b) w := by
    unfold SolverParams.sigmaDyn
    dsimp only
    have e0 : ∀ t (S : Lat n), distributedAssign p.ranks ((List.range (p.L + 1)).product p.lat)
        (fun x : ℕ × Lat n => gwPoint (fun a b c d => p.pieces.wToTau (fun w => kToR (fun k => W (w, k)) x.2 a b c d) x.1) (p.gTr g x.1 x.2))
          (t, S) = if t ≤ p.L then gwPoint (fun a b c d => p.pieces.wToTau (fun w => kToR (fun k => W (w, k)) S a b c d) t)
            (p.gTr g t S) else 0 := by
      intro t S
      have hnd : ((List.range (p.L + 1)).product p.lat).Nodup := List.Nodup.product List.nodup_range h.good.lat.1
      rw [C02_distributedAssign _ h.good.ranks _ hnd]
      have hmem : (t, S) ∈ (List.range (p.L + 1)).product p.lat ↔ t ≤ p.L := by
        rw [List.pair_mem_product, List.mem_range]
        simp [h.good.lat.2 S]
      simp only [hmem]
    simp only [e0]
  rw [e1, kToR_rToK]
  congr 1
  funext t
  by_cases ht : t ≤ p.L
  · rw [if_pos ht, if_pos ht, gTr_eq]
    rfl
  · rw [if_neg ht, if_neg ht]
    rfl

/-- C128: what the code returns for the dynamic self-energy in another cell: the Green's function is taken at the right vector, the
screened interaction at the vector counted the other way inside the cell. -/
theorem C128_gw_dynamic_actual (h : CellGw c s U p p') (hg : ∀ w, UpOf c (g w) (g' w)) (spinless : Bool) (hu : Invertible' spinless p g)
    (R : Lat m) (x y : O) (w : ℤ) :
    let W := p.wDyn (p.screened spinless (p.polarization g))
    kToR (p'.sigmaDyn (p'.wDyn (p'.screened spinless (p'.polarization g'))) g' w) R x y
      = p.pieces.toFreq (fun t => if t ≤ p.L then ∑ a, ∑ b,
        -p.pieces.wToTau (fun w => kToR (fun k => W (w, k)) (c.emb R + c.pos y - c.pos x) (c.orb x) a b (c.orb y)) t
        * gTimeSpace p g t (c.emb R + c.pos x - c.pos y) a b else 0) w := by
  intro W
  obtain ⟨h1, -, h2, h3⟩ := screened_cell h hg spinless hu
  refine dyn_core h hg h2 h3 R x y _ (fun w z u hz hy => ?_) w
  rw [h1 w R x z u y hz hy.symm, hy.1]

theorem kToR_flip {E : Type*} [AddCommGroup E] [Module ℂ E] (f : Lat n → E) (r : Lat n) : kToR (fun k => f (-k)) r = kToR f (-r) := by
  rw [kToR_lin, kToR_lin]
  refine Fintype.sum_equiv (Equiv.neg _) _ _ fun k => ?_
  rw [Equiv.neg_apply, ker_neg_right, neg_neg]

theorem dyn_flip (h : CellGw c s U p p') (hg : ∀ w, UpOf c (g w) (g' w)) {W : ℤ × Lat n → Bubble.T4 o} {W' : ℤ × Lat m → Bubble.T4 O}
    (hW : ∀ w k, Paired s.r (W (w, k))) (hW' : ∀ w K, Paired (Near c s) (W' (w, K)))
    (h1 : ∀ w R x y z u, Near c s x y → Near c s z u → kToR (fun K => W' (w, K)) R x y z u
      = kToR (fun k => W (w, k)) (c.emb R + c.pos x - c.pos z) (c.orb x) (c.orb y) (c.orb z) (c.orb u)) (w : ℤ) :
    UpOf c (p.sigmaDyn W g w) (p'.sigmaDyn W' g' w) := by
  intro R x y
  rw [dyn_old h, dyn_core h hg hW hW' R x y (c.emb R + c.pos x - c.pos y) (fun w z u hz hy => ?_) w]
  rw [h1 w R x z u y hz hy.symm, hy.1]

theorem PairOf.flip {f : Lat n → o → o → o → o → ℂ} {f' : Lat m → O → O → O → O → ℂ} (hf : PairOf c s f f') (R : Lat m) (x y z u : O)
    (h1 : Near c s x y) (h2 : Near c s z u) : kToR (fun K => f' (-K)) R x y z u
      = kToR (fun k => f (-k)) (c.emb R + c.pos x - c.pos z) (c.orb x) (c.orb y) (c.orb z) (c.orb u) := by
  rw [kToR_flip, kToR_flip, hf (-R) x y z u h1 h2,
    show c.emb (-R) + c.pos z - c.pos x = -(c.emb R + c.pos x - c.pos z) by rw [map_neg]; abel]

/-- C128: with the screened interaction taken at the opposite momentum the self-energy does not depend on the cell. -/
theorem C128_gw_dynamic_partial (h : CellGw c s U p p') (hg : ∀ w, UpOf c (g w) (g' w)) (spinless : Bool) (hu : Invertible' spinless p g)
    (w : ℤ) :
    UpOf c (p.sigmaDyn (fun x => p.wDyn (p.screened spinless (p.polarization g)) (x.1, -x.2)) g w)
      (p'.sigmaDyn (fun x => p'.wDyn (p'.screened spinless (p'.polarization g')) (x.1, -x.2)) g' w) := by
  obtain ⟨h1, -, h2, h3⟩ := screened_cell h hg spinless hu
  set W := p.wDyn (p.screened spinless (p.polarization g)) with hW
  set W' := p'.wDyn (p'.screened spinless (p'.polarization g')) with hW'
  clear_value W W'
  have f1 : ∀ w R x y z u, Near c s x y → Near c s z u → kToR (fun K => W' (w, -K)) R x y z u
      = kToR (fun k => W (w, -k)) (c.emb R + c.pos x - c.pos z) (c.orb x) (c.orb y) (c.orb z) (c.orb u) := fun w => (h1 w).flip
  exact dyn_flip (W := fun x => W (x.1, -x.2)) (W' := fun x => W' (x.1, -x.2)) h hg (fun w k => h2 w (-k)) (fun w K => h3 w (-K)) f1 w

/-! ## One pass without the dynamic part -/

theorem hartree_cell (h : CellGw c s U p p') (hg : ∀ w, UpOf c (g w) (g' w)) : UpOf c (p.sigmaHartree g) (p'.sigmaHartree g') := by
  have e : ∀ {d : ℕ} {n : Fin d → ℕ} [∀ i, NeZero (n i)] {o : Type} [Fintype o] (V : Bubble.T4 o) (rho : Lat n → o → o → ℂ) (r : Lat n),
      kToR (rToK (hartreeR (fun _ => V) rho)) r = if r = 0 then fun a b => ∑ c, ∑ d, V a b c d * rho 0 c d else 0 := by
    intro d n _ o _ V rho r
    rw [kToR_rToK]
    unfold hartreeR
    by_cases hr : r = 0
    · rw [if_pos hr, hr, Function.update_self]
    · rw [if_neg hr, Function.update_of_ne hr]
  intro R x y
  unfold SolverParams.sigmaHartree
  rw [h.V, h.V', e, e]
  have hrho : ∀ z u, Near c s z u → p'.rhoR g' 0 z u = p.rhoR g 0 (c.orb z) (c.orb u) := fun z u hn => by
    rw [rho_cell h hg, map_zero, hn.1, zero_add, sub_self]
  by_cases hxy : Near c s x y
  · by_cases hR : R = 0
    · rw [if_pos hR, if_pos (by rw [hR, map_zero, hxy.1, zero_add, sub_self])]
      have e1 : ∀ z u, place c s U x y z u * p'.rhoR g' 0 z u
          = if Near c s x z ∧ Near c s x u then U (c.orb x) (c.orb y) (c.orb z) (c.orb u) * p.rhoR g 0 (c.orb z) (c.orb u) else 0 := by
        intro z u
        by_cases h1 : Near c s x z ∧ Near c s x u
        · rw [if_pos h1]
          unfold place
          rw [if_pos ⟨hxy, hxy.symm.trans h1.1, h1.1.symm.trans h1.2⟩, hrho z u (h1.1.symm.trans h1.2)]
        · rw [if_neg h1]
          unfold place
          rw [if_neg fun h2 => h1 ⟨h2.1.trans h2.2.1, (h2.1.trans h2.2.1).trans h2.2.2⟩, zero_mul]
      have e2 : ∀ z u, U (c.orb x) (c.orb y) z u * p.rhoR g 0 z u
          = if s.r (c.orb x) z ∧ s.r (c.orb x) u then U (c.orb x) (c.orb y) z u * p.rhoR g 0 z u else 0 := by
        intro z u
        by_cases h0 : U (c.orb x) (c.orb y) z u = 0
        · rw [h0, zero_mul, ite_self]
        · have h1 := h.onsite _ _ _ _ h0
          exact (if_pos ⟨s.trans h1.1 h1.2.1, s.trans (s.trans h1.1 h1.2.1) h1.2.2⟩).symm
      simp only [e1]
      rw [sum_nearXY h.atoms x x fun z u => U (c.orb x) (c.orb y) z u * p.rhoR g 0 z u]
      exact Finset.sum_congr rfl fun z _ => Finset.sum_congr rfl fun u _ => (e2 z u).symm
    · rw [if_neg hR]
      rw [if_neg fun h0 => hR ?_]
      · rfl
      · have h1 : c.emb R = 0 := by rw [hxy.1, add_sub_cancel_right] at h0; exact h0
        exact (c.inj (R := R) (S := 0) (x := x) (y := x) (by rw [h1, map_zero]) rfl).1
  · have z1 : (if R = 0 then fun a b => ∑ c_1, ∑ d, place c s U a b c_1 d * p'.rhoR g' 0 c_1 d else 0) x y = 0 := by
      by_cases hR : R = 0
      · rw [if_pos hR]
        refine Finset.sum_eq_zero fun z _ => Finset.sum_eq_zero fun u _ => ?_
        unfold place
        rw [if_neg fun h1 => hxy h1.1, zero_mul]
      · rw [if_neg hR]; rfl
    rw [z1]
    by_cases h0 : c.emb R + c.pos x - c.pos y = 0
    · rw [if_pos h0]
      symm
      refine Finset.sum_eq_zero fun z _ => Finset.sum_eq_zero fun u _ => ?_
      rw [show U (c.orb x) (c.orb y) z u = 0 from by_contra fun h1 => hxy ?_, zero_mul]
      have hs := (h.onsite _ _ _ _ h1).1
      obtain ⟨y', hy1, hy2⟩ := h.atoms x (c.orb y) hs
      have h2 := c.inj (R := R) (S := 0) (x := y') (y := y) (by rw [map_zero, zero_add, hy2]; exact sub_eq_zero.1 h0) hy1
      refine ⟨?_, hs⟩
      rw [← hy2, h2.2]
    · rw [if_neg h0]; rfl

/-- an exchange term with an interaction within the atoms -/
theorem fock_cell (h : CellGw c s U p p') (hg : ∀ w, UpOf c (g w) (g' w)) : UpOf c (p.sigmaFock g) (p'.sigmaFock g') := by
  have e : ∀ {d : ℕ} {n : Fin d → ℕ} [∀ i, NeZero (n i)] {o : Type} [Fintype o] {ranks : ℕ} (_ : 0 < ranks) {lat : List (Lat n)}
      (_ : lat.Nodup) (_ : ∀ k, k ∈ lat) (v : Lat n → Bubble.T4 o) (rho : Lat n → o → o → ℂ) (r : Lat n) (a b : o),
      kToR (rToK (fockR ranks lat (kToR v) rho)) r a b = ∑ c, ∑ d, -kToR v r a c d b * rho r d c := by
    intro d n _ o _ ranks hr lat h1 h2 v rho r a b
    rw [kToR_rToK]
    unfold fockR
    rw [C02_distributedAssign ranks hr _ h1, if_pos (h2 r)]
  have hpo := place_pairOf h.atoms h.onsite
  have hneg : ∀ (r : Lat n), kToR (fun _ : Lat n => U) (-r) = kToR (fun _ => U) r := by
    intro r
    rw [kToR_lin, kToR_lin]
    refine Fintype.sum_equiv (Equiv.neg _) _ _ fun k => ?_
    rw [Equiv.neg_apply, ker_neg_right]
  have hneg' : ∀ (R : Lat m), kToR (fun _ : Lat m => place c s U) (-R) = kToR (fun _ => place c s U) R := by
    intro r
    rw [kToR_lin, kToR_lin]
    refine Fintype.sum_equiv (Equiv.neg _) _ _ fun k => ?_
    rw [Equiv.neg_apply, ker_neg_right]
  intro R x y
  unfold SolverParams.sigmaFock
  rw [e h.good'.ranks h.good'.lat.1 h.good'.lat.2, e h.good.ranks h.good.lat.1 h.good.lat.2, h.V, h.V']
  have new : ∀ z u, -kToR (fun _ => place c s U) R x z u y * p'.rhoR g' R u z
      = if Near c s x z ∧ Near c s y u then
        -kToR (fun _ => U) (c.emb R + c.pos x - c.pos y) (c.orb x) (c.orb z) (c.orb u) (c.orb y)
          * p.rhoR g (c.emb R + c.pos x - c.pos y) (c.orb u) (c.orb z) else 0 := by
    intro z u
    by_cases hn : Near c s x z ∧ Near c s y u
    · rw [if_pos hn, rho_cell h hg, ← hneg', hpo (-R) x z u y hn.1 hn.2.symm, ← hneg, hn.1.1, hn.2.1]
      congr 3
      rw [map_neg]
      abel_nf
    · rw [if_neg hn, show kToR (fun _ => place c s U) R x z u y = 0 from by_contra fun h0 =>
        hn ⟨(kToR_paired (fun _ => place_paired U) R _ _ _ _ h0).1, (kToR_paired (fun _ => place_paired U) R _ _ _ _ h0).2.symm⟩,
        neg_zero, zero_mul]
  have old : ∀ a b, -kToR (fun _ => U) (c.emb R + c.pos x - c.pos y) (c.orb x) a b (c.orb y)
        * p.rhoR g (c.emb R + c.pos x - c.pos y) b a
      = if s.r (c.orb x) a ∧ s.r (c.orb y) b then -kToR (fun _ => U) (c.emb R + c.pos x - c.pos y) (c.orb x) a b (c.orb y)
        * p.rhoR g (c.emb R + c.pos x - c.pos y) b a else 0 := by
    intro a b
    by_cases hn : s.r (c.orb x) a ∧ s.r (c.orb y) b
    · rw [if_pos hn]
    · rw [if_neg hn, show kToR (fun _ => U) (c.emb R + c.pos x - c.pos y) (c.orb x) a b (c.orb y) = 0 from by_contra fun h0 =>
        hn ⟨(kToR_paired (fun _ => onsite_paired h.onsite) _ _ _ _ _ h0).1,
          s.symm (kToR_paired (fun _ => onsite_paired h.onsite) _ _ _ _ _ h0).2⟩, neg_zero, zero_mul]
  simp only [new]
  rw [sum_nearXY h.atoms x y fun a b => -kToR (fun _ => U) (c.emb R + c.pos x - c.pos y) (c.orb x) a b (c.orb y)
        * p.rhoR g (c.emb R + c.pos x - c.pos y) b a]
  exact Finset.sum_congr rfl fun a _ => Finset.sum_congr rfl fun b _ => (old a b).symm

/-- C128: one pass of the GW solver with the Hartree and the Fock term but without the dynamic part, for an interaction within the
atoms; with the dynamic part the claim fails, see `C128_gw_violated`. The polarisation and the screened interaction are covered. -/
theorem C128_gw_pass_partial (h : CellGw c s U p p') (hg : ∀ w, UpOf c (g w) (g' w)) (f : Flags) (hf : f.gw = false) (mu : ℝ)
    {t : Sweep n o} {t' : Sweep m O} (ht : p.sweep f mu g = .ok t) (ht' : p'.sweep f mu g' = .ok t')
    (hu : Invertible' f.spinless p g)
    (hd : ∀ w ∈ p.freqs, ∀ k, IsUnit ((p.val w + 0 + (mu : ℂ)) • (1 : Matrix o o ℂ) - p.e k - Matrix.of (t.sigma w k)).det) :
    t.mu = mu ∧ t'.mu = mu ∧ (∀ w, UpOf c (t.sigma w) (t'.sigma w)) ∧ UpOf c t.hartree t'.hartree ∧ UpOf c t.fock t'.fock ∧
      (∀ w, PairOf c s (t.P w) (t'.P w)) ∧ (∀ w, PairOf c s (fun k => t.W (w, k)) fun K => t'.W (w, K)) ∧
      ∀ w ∈ p.freqs, UpOf c (t.g w) (t'.g w) := by
  obtain ⟨a1, a2, a3, a4, a5, a6, a7, a8⟩ := sweep_ok f mu g t ht
  obtain ⟨b1, b2, b3, b4, b5, b6, b7, b8⟩ := sweep_ok f mu g' t' ht'
  obtain ⟨ag, amu, -⟩ := dyson_ok _ _ _ _ a8
  obtain ⟨bg, bmu, -⟩ := dyson_ok _ _ _ _ b8
  have hH : UpOf c t.hartree t'.hartree := by rw [a1, b1]; exact hartree_cell h hg
  have hF : UpOf c t.fock t'.fock := by rw [a2, b2]; exact fock_cell h hg
  have hS : ∀ w, UpOf c (t.sigma w) (t'.sigma w) := by
    intro w
    have x1 : t.sigma w = fun k => ((if f.hartree then t.hartree k else 0) + if f.fock then t.fock k else 0) := funext fun k => by
      rw [a7, hf]
      simp
    have x2 : t'.sigma w = fun k => ((if f.hartree then t'.hartree k else 0) + if f.fock then t'.fock k else 0) := funext fun k => by
      rw [b7, hf]
      simp
    rw [x1, x2]
    refine UpOf.add ?_ ?_
    · cases f.hartree
      · simpa using UpOf.zero
      · simpa using hH
    · cases f.fock
      · simpa using UpOf.zero
      · simpa using hF
  have hmu := amu h.nFix
  have hmu' := bmu h.nFix'
  refine ⟨hmu, hmu', hS, hH, hF, fun w => ?_, fun w => ?_, fun w hw => ?_⟩
  · rw [a3, b3]
    exact pol_cell h hg w
  · rw [a4, b4, a3, b3]
    exact (screened_cell h hg f.spinless hu).2.1 w
  · rw [upOf_iff, ag, bg, hmu, hmu']
    funext K
    rw [dispatch_some h.good' mu t'.sigma w (h.freqs ▸ hw) K, h.e, h.val]
    have hk : (fun k => Matrix.of (p.dispatch mu (some t.sigma) w k))
        = fun k => ((p.val w + 0 + (mu : ℂ)) • (1 : Matrix o o ℂ) - p.e k - Matrix.of (t.sigma w k))⁻¹ := funext fun k =>
      dispatch_some h.good mu t.sigma w hw k
    rw [hk]
    exact up_resolvent (fun K => congrFun (upOf_iff.1 (hS w)) K) _ (hd w hw) K

end Verif.Supercell
