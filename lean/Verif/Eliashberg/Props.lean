import Verif.Eliashberg.Model
import Verif.Gw.Props
import Mathlib.Order.Interval.Finset.Defs
import Mathlib.Data.Int.Interval

/-!
# C58, C59, C60: the linearised Eliashberg product
-/

noncomputable section

namespace Verif.Eliashberg

open Complex Verif.Parallel Verif.Fourier Verif.Bubble Verif.Gw

variable {d : ℕ} {n : Fin d → ℕ} [∀ i, NeZero (n i)] {o : Type*} [Fintype o] [DecidableEq o]

set_option linter.unusedSectionVars false

/-! ## The frequency window -/

/-- indices of the fermionic frequencies `-N, ..., N - 1` -/
abbrev window (N : ℕ) : Finset ℤ := Finset.Ico (-(N : ℤ)) N

theorem wIndices_fermion_nodup (N : ℕ) : (wIndices .fermion N).Nodup := by
  refine List.Nodup.map ?_ List.nodup_range
  intro a b h
  simp only at h
  omega

theorem mem_wIndices_fermion (N : ℕ) (m : ℤ) : m ∈ wIndices .fermion N ↔ m ∈ window N := by
  simp only [wIndices, List.mem_map, List.mem_range, Finset.mem_Ico]
  constructor
  · rintro ⟨j, hj, rfl⟩; omega
  · rintro ⟨h1, h2⟩; exact ⟨(m + N).toNat, by omega, by omega⟩

theorem sum_wIndices {E : Type*} [AddCommMonoid E] (N : ℕ) (f : ℤ → E) :
    ((wIndices .fermion N).map f).sum = ∑ m ∈ window N, f m := by
  rw [← List.sum_toFinset _ (wIndices_fermion_nodup N)]
  refine Finset.sum_congr ?_ fun _ _ => rfl
  ext m
  rw [List.mem_toFinset, mem_wIndices_fermion]

theorem sum_product {A B E : Type*} [AddCommMonoid E] (l : List A) (l' : List B) (f : A × B → E) :
    ((l.product l').map f).sum = (l.map fun a => (l'.map fun b => f (a, b)).sum).sum := by
  induction l with
  | nil => rfl
  | cons a l ih =>
    have : (a :: l).product l' = l'.map (fun b => (a, b)) ++ l.product l' := rfl
    rw [this, List.map_append, List.sum_append, ih, List.map_cons, List.sum_cons, List.map_map]
    rfl

theorem sum_gapMesh {E : Type*} [AddCommMonoid E] (N : ℕ) {lat : List (Lat n)} (hc : Complete lat)
    (f : ℤ × Lat n → E) : ((gapMesh N lat).map f).sum = ∑ m ∈ window N, ∑ q, f (m, q) := by
  rw [gapMesh, sum_product, sum_wIndices]
  refine Finset.sum_congr rfl fun m _ => hc.sum _

theorem gapMesh_nodup (N : ℕ) {lat : List (Lat n)} (hc : Complete lat) : (gapMesh N lat).Nodup :=
  (wIndices_fermion_nodup N).product hc.1

theorem mem_gapMesh (N : ℕ) {lat : List (Lat n)} (hc : Complete lat) (m : ℤ) (k : Lat n) :
    (m, k) ∈ gapMesh N lat ↔ m ∈ window N := by
  rw [gapMesh, List.pair_mem_product, mem_wIndices_fermion]
  exact ⟨fun h => h.1, fun h => ⟨h, hc.2 k⟩⟩

/-- reflection of the window, `ν → -ν` -/
theorem sum_window_neg {E : Type*} [AddCommMonoid E] (N : ℕ) (f : ℤ → E) :
    ∑ m ∈ window N, f (-m - 1) = ∑ m ∈ window N, f m := by
  refine Finset.sum_nbij' (fun m => -m - 1) (fun m => -m - 1) ?_ ?_ ?_ ?_ ?_
  · intro m hm; simp only [Finset.mem_Ico] at hm ⊢; omega
  · intro m hm; simp only [Finset.mem_Ico] at hm ⊢; omega
  · intro m _; ring
  · intro m _; ring
  · intro m _; rfl

theorem window_neg {N : ℕ} {m : ℤ} (hm : m ∈ window N) : -m - 1 ∈ window N := by
  simp only [Finset.mem_Ico] at hm ⊢; omega

/-! ## Value of the explicit sum -/

/-- the pair function `F(d, c)` without the mesh bookkeeping -/
def pairF (g delta : ℤ → Lat n → o → o → ℂ) (m : ℤ) (k : Lat n) : o → o → ℂ :=
  gdgPoint (g m k) (g m (-k)) (delta m k)

theorem gDeltaG_ok {ranks : ℕ} (hr : 0 < ranks) {N Ng : ℕ} (hN : N ≤ Ng) {lat : List (Lat n)} (hc : Complete lat)
    (g delta : ℤ → Lat n → o → o → ℂ) : ∃ F, gDeltaG ranks N Ng lat g delta = .ok F ∧
      ∀ m ∈ window N, ∀ k, F (m, k) = pairF g delta m k := by
  refine ⟨distributedAssign ranks (gapMesh N lat) fun p => gdgPoint (g p.1 p.2) (g p.1 (-p.2)) (delta p.1 p.2),
    ?_, fun m hm k => ?_⟩
  · rw [gDeltaG, if_neg]
    simp only [meshSize]
    omega
  · rw [C02_distributedAssign ranks hr _ (gapMesh_nodup N hc), if_pos ((mem_gapMesh N hc m k).2 hm)]
    rfl

/-- the explicit sum, before inserting `F` -/
def sumValue (beta : ℝ) (N : ℕ) (gamma : ℤ → Lat n → T4 o) (g delta : ℤ → Lat n → o → o → ℂ) (w : ℤ) (k : Lat n)
    (a b : o) : ℂ :=
  (∑ m ∈ window N, ∑ q, gammaF (gamma (w - m) (k - q)) (pairF g delta m q) a b)
    / (beta * Fintype.card (Lat n))

theorem eliashbergProduct_ok {ranks : ℕ} (hr : 0 < ranks) {N Ng NG : ℕ} (hN : N ≤ Ng)
    (hG : 4 * N ≤ 2 * NG - 1)
    (beta : ℝ) {lat : List (Lat n)} (hc : Complete lat) (gamma : ℤ → Lat n → T4 o)
    (g delta : ℤ → Lat n → o → o → ℂ) :
    eliashbergProduct ranks N Ng NG beta lat gamma g delta = .ok (sumValue beta N gamma g delta) := by
  obtain ⟨F, hF, hval⟩ := gDeltaG_ok hr hN hc g delta
  rw [eliashbergProduct, if_neg (by simp only [meshSize]; omega), hF]
  simp only
  congr 1
  funext w k a b
  rw [hc.assign hr, sumValue, sum_gapMesh N hc, hc.length]
  congr 1
  refine Finset.sum_congr rfl fun m hm => Finset.sum_congr rfl fun q _ => ?_
  rw [hval m hm]

/-! ## C59 -/

/-- The documented equation (`doc/theory/eliashberg.rst`):
`-1/(2 N_k β) Σ_{K'} Γ_{c a d b}(K - K') G_{c f}(K') G_{d e}(-K') Δ_{e f}(K')`. -/
def theoryProduct (beta : ℝ) (N : ℕ) (gamma : ℤ → Lat n → T4 o) (g delta : ℤ → Lat n → o → o → ℂ) (w : ℤ)
    (k : Lat n) (a b : o) : ℂ :=
  -(1 / (2 * Fintype.card (Lat n) * beta)) * ∑ m ∈ window N, ∑ q, ∑ c, ∑ d, ∑ e, ∑ f,
    gamma (w - m) (k - q) c a d b * g m q c f * g (-m - 1) (-q) d e * delta m q e f

/-- The equation in the header (`eliashberg.hpp`): `Γ_{c a d b} G_{c e}(K') G_{d f}(-K') Δ_{e f}(K')`. -/
def headerProduct (beta : ℝ) (N : ℕ) (gamma : ℤ → Lat n → T4 o) (g delta : ℤ → Lat n → o → o → ℂ) (w : ℤ)
    (k : Lat n) (a b : o) : ℂ :=
  -(1 / (2 * Fintype.card (Lat n) * beta)) * ∑ m ∈ window N, ∑ q, ∑ c, ∑ d, ∑ e, ∑ f,
    gamma (w - m) (k - q) c a d b * g m q c e * g (-m - 1) (-q) d f * delta m q e f

/-- `G(-iν, k) = G(iν, k)†` -/
def HermitianG (g : ℤ → Lat n → o → o → ℂ) : Prop :=
  ∀ m k a b, g (-m - 1) k a b = (starRingEnd ℂ) (g m k b a)

theorem HermitianG.eq {g : ℤ → Lat n → o → o → ℂ} (h : HermitianG g) (m : ℤ) (k : Lat n) (a b : o) :
    g (-m - 1) k b a = (starRingEnd ℂ) (g m k a b) := h m k b a

theorem sumValue_eq_theory (beta : ℝ) (N : ℕ) (gamma : ℤ → Lat n → T4 o) (g delta : ℤ → Lat n → o → o → ℂ)
    (hg : HermitianG g) : sumValue beta N gamma g delta = theoryProduct beta N gamma g delta := by
  funext w k a b
  simp only [sumValue, theoryProduct, gammaF, pairF, gdgPoint, ← hg.eq, Finset.mul_sum, Finset.sum_div]
  refine Finset.sum_congr rfl fun m _ => Finset.sum_congr rfl fun q _ => Finset.sum_congr rfl fun c _ =>
    Finset.sum_congr rfl fun d _ => Finset.sum_congr rfl fun e _ => Finset.sum_congr rfl fun f _ => ?_
  rw [div_eq_mul_inv, mul_inv, one_div, one_div, mul_inv, mul_inv]
  ring

/-- C59: acceptance of the explicit sum: the Green's function mesh is at least as large as the gap mesh and the vertex
mesh at least twice as large; otherwise an exception is raised. -/
theorem C59_accepts {ranks : ℕ} (N Ng NG : ℕ) (beta : ℝ) {lat : List (Lat n)}
    (gamma : ℤ → Lat n → T4 o) (g delta : ℤ → Lat n → o → o → ℂ) :
    (∃ out, eliashbergProduct ranks N Ng NG beta lat gamma g delta = .ok out)
      ↔ 2 * N ≤ 2 * Ng ∧ 2 * (2 * N) ≤ 2 * NG - 1 := by
  by_cases h1 : 2 * (2 * N) > 2 * NG - 1
  · have e : eliashbergProduct ranks N Ng NG beta lat gamma g delta = .error .gammaMesh := by
      rw [eliashbergProduct]
      exact if_pos h1
    rw [e]
    exact ⟨fun ⟨_, h⟩ => (nomatch h), fun h => absurd h.2 (by omega)⟩
  · by_cases h2 : 2 * N > 2 * Ng
    · have e : eliashbergProduct ranks N Ng NG beta lat gamma g delta = .error .greenMesh := by
        rw [eliashbergProduct, gDeltaG, if_neg (by exact h1), if_pos (by exact h2)]
      rw [e]
      exact ⟨fun ⟨_, h⟩ => (nomatch h), fun h => absurd h.1 (by omega)⟩
    · rw [eliashbergProduct, gDeltaG, if_neg (by exact h1), if_neg (by exact h2)]
      exact ⟨fun _ => ⟨by omega, by omega⟩, fun _ => ⟨_, rfl⟩⟩

/-- C59: in an accepted sum the vertex is only evaluated at frequencies of its mesh. -/
theorem C59_in_range (N NG : ℕ) (h : 2 * (2 * N) ≤ 2 * NG - 1) (w m : ℤ) (hw : w ∈ window N) (hm : m ∈ window N) :
    w - m ∈ wIndices .boson NG := by
  simp only [Finset.mem_Ico] at hw hm
  simp only [wIndices, List.mem_map, List.mem_range]
  exact ⟨(w - m + (NG - 1)).toNat, by omega, by omega⟩

/-- C59: whenever the frequency meshes are accepted, the routine returns the documented product, for every vertex,
Green's function with `G(-iν) = G(iν)†`, gap, lattice, number of orbitals and number of ranks. -/
theorem C59_theory {ranks : ℕ} (hr : 0 < ranks) (N Ng NG : ℕ) (beta : ℝ) {lat : List (Lat n)} (hc : Complete lat)
    (gamma : ℤ → Lat n → T4 o) (g delta : ℤ → Lat n → o → o → ℂ) (hg : HermitianG g)
    (out : ℤ → Lat n → o → o → ℂ) (hout : eliashbergProduct ranks N Ng NG beta lat gamma g delta = .ok out) :
    out = theoryProduct beta N gamma g delta := by
  obtain ⟨h1, h2⟩ := (C59_accepts N Ng NG beta gamma g delta).1 ⟨out, hout⟩
  rw [eliashbergProduct_ok hr (by omega) (by omega) beta hc] at hout
  rw [← sumValue_eq_theory beta N gamma g delta hg]
  injection hout with h
  exact h.symm

/-- C59: the equation in the header is the documented one for the transposed gap, hence equal for gaps symmetric and
opposite for gaps antisymmetric in the orbitals. -/
theorem C59_header (beta : ℝ) (N : ℕ) (gamma : ℤ → Lat n → T4 o) (g delta : ℤ → Lat n → o → o → ℂ) :
    headerProduct beta N gamma g delta = theoryProduct beta N gamma g fun m k a b => delta m k b a := by
  funext w k a b
  unfold headerProduct theoryProduct
  refine congrArg _ ?_
  refine Finset.sum_congr rfl fun m _ => Finset.sum_congr rfl fun q _ => Finset.sum_congr rfl fun c _ =>
    Finset.sum_congr rfl fun d _ => ?_
  exact Finset.sum_comm

/-- C59 (header equation): holds for gaps that are symmetric in the orbitals. -/
theorem C59_header_partial {ranks : ℕ} (hr : 0 < ranks) (N Ng NG : ℕ) (beta : ℝ) {lat : List (Lat n)}
    (hc : Complete lat) (gamma : ℤ → Lat n → T4 o) (g delta : ℤ → Lat n → o → o → ℂ) (hg : HermitianG g)
    (hd : ∀ m k a b, delta m k b a = delta m k a b) (out : ℤ → Lat n → o → o → ℂ)
    (hout : eliashbergProduct ranks N Ng NG beta lat gamma g delta = .ok out) :
    out = headerProduct beta N gamma g delta := by
  rw [C59_theory hr N Ng NG beta hc gamma g delta hg out hout, C59_header]
  congr 1
  funext m k a b
  exact (hd m k a b).symm

/-- the trivial lattice with one momentum -/
abbrev L1 := Lat (fun _ : Fin 1 => 1)

/-- C59: the header equation is violated: two orbitals, one momentum, one positive frequency, Green's function equal to
the identity. -/
theorem C59_header_violated : ∃ (gamma : ℤ → L1 → T4 (Fin 2)) (g delta : ℤ → L1 → Fin 2 → Fin 2 → ℂ),
    HermitianG g ∧ ∀ (ranks : ℕ) (_ : 0 < ranks) (lat : List L1) (_ : Complete lat),
      ∃ out, eliashbergProduct ranks 1 1 3 1 lat gamma g delta = .ok out ∧
        out 0 0 0 0 ≠ headerProduct 1 1 gamma g delta 0 0 0 0 := by
  refine ⟨fun _ _ c _ d _ => if c = 0 ∧ d = 1 then 1 else 0, fun _ _ a b => if a = b then 1 else 0,
    fun _ _ a b => if a = 0 ∧ b = 1 then 1 else 0, ?_, fun ranks hr lat hc => ?_⟩
  · intro m k a b
    by_cases h : a = b
    · simp [h]
    · simp [h, Ne.symm h]
  · refine ⟨_, eliashbergProduct_ok hr (by omega) (by omega) 1 hc _ _ _, ?_⟩
    rw [sumValue_eq_theory]
    · simp [theoryProduct, headerProduct, Fin.sum_univ_two, Finset.sum_const]
    · intro m k a b
      by_cases h : a = b
      · simp [h]
      · simp [h, Ne.symm h]

/-! ## C60 -/

/-- C60: the product is linear in the gap. -/
theorem C60_linear {ranks : ℕ} (hr : 0 < ranks) (N Ng NG : ℕ) (beta : ℝ) {lat : List (Lat n)} (hc : Complete lat)
    (gamma : ℤ → Lat n → T4 o) (g delta delta' : ℤ → Lat n → o → o → ℂ) (x : ℂ)
    (hN : 2 * N ≤ 2 * Ng) (hG : 2 * (2 * N) ≤ 2 * NG - 1) :
    ∃ u v z, eliashbergProduct ranks N Ng NG beta lat gamma g delta = .ok u ∧
      eliashbergProduct ranks N Ng NG beta lat gamma g delta' = .ok v ∧
      eliashbergProduct ranks N Ng NG beta lat gamma g (fun m k a b => delta m k a b + x * delta' m k a b) = .ok z ∧
      ∀ w k a b, z w k a b = u w k a b + x * v w k a b := by
  refine ⟨_, _, _, eliashbergProduct_ok hr (by omega) (by omega) beta hc _ _ _,
    eliashbergProduct_ok hr (by omega) (by omega) beta hc _ _ _,
    eliashbergProduct_ok hr (by omega) (by omega) beta hc _ _ _, fun w k a b => ?_⟩
  simp only [sumValue, gammaF, pairF, gdgPoint, Finset.mul_sum, Finset.sum_div, ← Finset.sum_add_distrib]
  refine Finset.sum_congr rfl fun m _ => Finset.sum_congr rfl fun q _ => Finset.sum_congr rfl fun c _ =>
    Finset.sum_congr rfl fun d _ => Finset.sum_congr rfl fun e _ => Finset.sum_congr rfl fun f _ => ?_
  ring

/-- C60: an inversion symmetric vertex and Green's function keep the parity in momentum: the product of the inverted
gap is the inverted product. -/
theorem C60_momentum {ranks : ℕ} (hr : 0 < ranks) (N Ng NG : ℕ) (beta : ℝ) {lat : List (Lat n)} (hc : Complete lat)
    (gamma : ℤ → Lat n → T4 o) (g delta : ℤ → Lat n → o → o → ℂ) (hgam : ∀ m q, gamma m (-q) = gamma m q)
    (hg : ∀ m k, g m (-k) = g m k) (u v : ℤ → Lat n → o → o → ℂ)
    (hu : eliashbergProduct ranks N Ng NG beta lat gamma g delta = .ok u)
    (hv : eliashbergProduct ranks N Ng NG beta lat gamma g (fun m k => delta m (-k)) = .ok v) :
    ∀ m k, v m k = u m (-k) := by
  obtain ⟨h1, h2⟩ := (C59_accepts N Ng NG beta gamma g delta).1 ⟨u, hu⟩
  rw [eliashbergProduct_ok hr (by omega) (by omega) beta hc] at hu hv
  injection hu with hu
  injection hv with hv
  subst hu hv
  intro w k
  funext a b
  simp only [sumValue]
  congr 1
  refine Finset.sum_congr rfl fun m _ => ?_
  rw [← Equiv.sum_comp (Equiv.neg (Lat n))]
  refine Finset.sum_congr rfl fun q _ => ?_
  simp only [Equiv.neg_apply, pairF, neg_neg, hg]
  rw [← hgam, neg_sub, neg_sub_comm, sub_eq_neg_add]

/-- C60: even gaps stay even and odd gaps stay odd (`x = 1` and `x = -1`). -/
theorem C60_parity {ranks : ℕ} (hr : 0 < ranks) (N Ng NG : ℕ) (beta : ℝ) {lat : List (Lat n)} (hc : Complete lat)
    (gamma : ℤ → Lat n → T4 o) (g delta : ℤ → Lat n → o → o → ℂ) (hgam : ∀ m q, gamma m (-q) = gamma m q)
    (hg : ∀ m k, g m (-k) = g m k) (x : ℂ) (hd : ∀ m k a b, delta m (-k) a b = x * delta m k a b)
    (u : ℤ → Lat n → o → o → ℂ) (hu : eliashbergProduct ranks N Ng NG beta lat gamma g delta = .ok u) :
    ∀ m k a b, u m (-k) a b = x * u m k a b := by
  obtain ⟨h1, h2⟩ := (C59_accepts N Ng NG beta gamma g delta).1 ⟨u, hu⟩
  obtain ⟨u', z, v, hu', hz, hv, hlin⟩ := C60_linear hr N Ng NG beta hc gamma g (fun _ _ _ _ => 0) delta x h1 h2
  have e : (fun m k a b => (0 : ℂ) + x * delta m k a b) = fun m k => delta m (-k) := by
    funext m k a b
    rw [zero_add, ← hd]
  rw [e] at hv
  have hm := C60_momentum hr N Ng NG beta hc gamma g delta hgam hg u v hu hv
  intro m k a b
  have h0 : u' m k a b = 0 := by
    rw [eliashbergProduct_ok hr (by omega) (by omega) beta hc] at hu'
    injection hu' with hu'
    subst hu'
    simp [sumValue, gammaF, pairF, gdgPoint]
  rw [hu] at hz
  injection hz with hz
  subst hz
  rw [← hm, hlin, h0, zero_add]

theorem pairF_exchange (g delta : ℤ → Lat n → o → o → ℂ) (hg : HermitianG g) (m : ℤ) (k : Lat n) (d c : o) :
    pairF g (fun m k a b => delta (-m - 1) (-k) b a) m k d c = pairF g delta (-m - 1) (-k) c d := by
  have hgg : ∀ m k a b, (starRingEnd ℂ) (g (-m - 1) k a b) = g m k b a := by
    intro m k a b
    rw [hg, Complex.conj_conj]
  simp only [pairF, gdgPoint, neg_neg, ← hg.eq]
  rw [Finset.sum_comm]
  refine Finset.sum_congr rfl fun e _ => Finset.sum_congr rfl fun f _ => ?_
  rw [show -(-m - 1) - 1 = m by ring]
  ring

/-- C60: for a vertex with `Γ_{cadb}(Q) = Γ_{dbca}(-Q)` and `G(-iν) = G(iν)†` the product commutes with the simultaneous
reversal of frequency and momentum and exchange of the orbitals. -/
theorem C60_exchange {ranks : ℕ} (hr : 0 < ranks) (N Ng NG : ℕ) (beta : ℝ) {lat : List (Lat n)} (hc : Complete lat)
    (gamma : ℤ → Lat n → T4 o) (g delta : ℤ → Lat n → o → o → ℂ)
    (hgam : ∀ m q a b c d, gamma (-m) (-q) a b c d = gamma m q c d a b) (hg : HermitianG g)
    (u v : ℤ → Lat n → o → o → ℂ) (hu : eliashbergProduct ranks N Ng NG beta lat gamma g delta = .ok u)
    (hv : eliashbergProduct ranks N Ng NG beta lat gamma g (fun m k a b => delta (-m - 1) (-k) b a) = .ok v) :
    ∀ m k a b, v m k a b = u (-m - 1) (-k) b a := by
  obtain ⟨h1, h2⟩ := (C59_accepts N Ng NG beta gamma g delta).1 ⟨u, hu⟩
  rw [eliashbergProduct_ok hr (by omega) (by omega) beta hc] at hu hv
  injection hu with hu
  injection hv with hv
  subst hu hv
  intro w k a b
  simp only [sumValue]
  congr 1
  rw [← sum_window_neg]
  refine Finset.sum_congr rfl fun m _ => ?_
  rw [← Equiv.sum_comp (Equiv.neg (Lat n))]
  refine Finset.sum_congr rfl fun q _ => ?_
  simp only [Equiv.neg_apply, gammaF]
  rw [Finset.sum_comm]
  refine Finset.sum_congr rfl fun c _ => Finset.sum_congr rfl fun e _ => ?_
  rw [pairF_exchange g delta hg, show -(-m - 1) - 1 = m by ring, neg_neg, ← hgam,
    show -(w - (-m - 1)) = -w - 1 - m by ring, show -(k - -q) = -k - q by abel]

/-- C60: for a single orbital, inversion symmetric vertex and Green's function and a vertex even in frequency the parity
in frequency is kept. -/
theorem C60_frequency {ranks : ℕ} (hr : 0 < ranks) (N Ng NG : ℕ) (beta : ℝ) {lat : List (Lat n)} (hc : Complete lat)
    [Subsingleton o] (gamma : ℤ → Lat n → T4 o) (g delta : ℤ → Lat n → o → o → ℂ)
    (hgam : ∀ m q, gamma m (-q) = gamma m q) (hgm : ∀ m q, gamma (-m) q = gamma m q)
    (hgk : ∀ m k, g m (-k) = g m k) (hg : HermitianG g)
    (u v : ℤ → Lat n → o → o → ℂ) (hu : eliashbergProduct ranks N Ng NG beta lat gamma g delta = .ok u)
    (hv : eliashbergProduct ranks N Ng NG beta lat gamma g (fun m k => delta (-m - 1) k) = .ok v) :
    ∀ m k, v m k = u (-m - 1) k := by
  obtain ⟨h1, h2⟩ := (C59_accepts N Ng NG beta gamma g delta).1 ⟨u, hu⟩
  obtain ⟨z, hz⟩ := (C59_accepts (ranks := ranks) (lat := lat) N Ng NG beta gamma g
    (fun m k a b => delta (-m - 1) (-k) b a)).2 ⟨h1, h2⟩
  have e1 := C60_exchange hr N Ng NG beta hc gamma g delta (fun m q a b c d => by
    rw [hgam, hgm, Subsingleton.elim a c, Subsingleton.elim b d]) hg u z hu hz
  have hz' : (fun m k a b => delta (-m - 1) (-k) b a) = fun m k => (fun m k => delta (-m - 1) k) m (-k) := by
    funext m k a b
    rw [Subsingleton.elim a b]
  rw [hz'] at hz
  have e2 := C60_momentum hr N Ng NG beta hc gamma g (fun m k => delta (-m - 1) k) hgam hgk v z hv hz
  intro m k
  funext a b
  have := e2 m (-k)
  rw [neg_neg] at this
  rw [← this, e1, neg_neg, Subsingleton.elim a b]

/-- non-trivial instance of the hypotheses of C59 and C60: two orbitals, three momenta, a non diagonal, frequency
dependent Green's function and a momentum dependent vertex -/
example : ∃ (g : ℤ → L3 → Fin 2 → Fin 2 → ℂ) (gamma : ℤ → L3 → T4 (Fin 2)),
    HermitianG g ∧ (∀ m k, g m (-k) = g m k) ∧ (∀ m q, gamma m (-q) = gamma m q) ∧
    (∀ m q a b c d, gamma (-m) (-q) a b c d = gamma m q c d a b) ∧ g 0 0 0 1 ≠ 0 ∧ g 0 0 0 0 ≠ g 1 0 0 0 ∧
    gamma 0 0 0 0 0 0 ≠ gamma 0 (fun _ => 1) 0 0 0 0 := by
  refine ⟨fun m _ a b => if a = b then -(I / (2 * m + 1)) else 1, fun _ q _ _ _ _ => if q = 0 then 1 else 0,
    ?_, fun _ _ => rfl, ?_, ?_, ?_, ?_, ?_⟩
  · intro m k a b
    by_cases h : a = b
    · subst h
      simp only [if_true, map_neg, map_div₀, conj_I, map_add, map_mul, map_one, map_intCast, map_ofNat]
      push_cast
      rw [show (2 * (-(m : ℂ) - 1) + 1) = -(2 * m + 1) by ring, div_neg, neg_div]
    · simp [h, Ne.symm h]
  · intro m q
    simp
  · intro m q a b c d
    simp
  · simp
  · intro h
    have := congrArg Complex.im h
    norm_num at this
  · have : (fun _ => 1 : L3) ≠ 0 := by decide
    simp [this]

end Verif.Eliashberg
