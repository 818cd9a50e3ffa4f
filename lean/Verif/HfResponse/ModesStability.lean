import Verif.HfResponse.Variational

/-!
# C103: the modes of `mode_decomposition` and the stability of the Hartree-Fock solution
-/

noncomputable section

namespace Verif.HfResponse

open Matrix Filter Topology
open scoped Matrix.Norms.Operator ComplexOrder

variable {n : ℕ} {κ : Type*} [Fintype κ]

set_option linter.unusedSectionVars false

/-! ## The matrix of which the code takes the eigenvalues -/

/-- the interaction with the first pair exchanged -/
def kernelMat (U : Operators.T4 n) : Matrix (Fin n × Fin n) (Fin n × Fin n) ℂ :=
  fun A B => U A.2 A.1 B.1 B.2

theorem fieldMat_conj (b : Base n κ) (hk : ∀ k, (b.ek k).IsHermitian) (A B : Fin n × Fin n) :
    fieldMat b A.swap B.swap = (starRingEnd ℂ) (fieldMat b A B) := by
  simp only [fieldMat, Prod.fst_swap, Prod.snd_swap, map_div₀, map_sum, map_neg, map_natCast]
  congr 1
  refine Finset.sum_congr rfl fun k _ => ?_
  rw [← unit_conjTranspose B.1 B.2, dFermi_conjTranspose _ (hk k), Matrix.conjTranspose_apply]
  rfl

theorem chi0Lim_eq [Nonempty κ] (b : Base n κ) (hb : 0 < b.beta) (hk : ∀ k, (b.ek k).IsHermitian)
    (A B : Fin n × Fin n) :
    toMat (chi0Lim b) A B = fieldMat b A B.swap := by
  have h1 : toMat (chi0Lim b) A B = fieldMat b B A.swap := rfl
  have h2 := (fieldMat_posDef b hb hk).isHermitian.apply B A.swap
  rw [h1, ← h2, Complex.star_def, ← fieldMat_conj b hk]
  rfl

theorem chi0U_eq [Nonempty κ] (b : Base n κ) (hb : 0 < b.beta) (hk : ∀ k, (b.ek k).IsHermitian)
    (U : Operators.T4 n) :
    toMat (chi0Lim b) * toMat U = fieldMat b * kernelMat U := by
  ext A B
  rw [Matrix.mul_apply, Matrix.mul_apply, ← Equiv.sum_comp (Equiv.prodComm (Fin n) (Fin n))]
  refine Finset.sum_congr rfl fun C _ => ?_
  rw [chi0Lim_eq b hb hk]
  rfl

theorem kernelMat_hermitian (U : Operators.T4 n) (hU : ∀ a b c d, U c d a b = U a b c d)
    (hH : ∀ a b c d, (starRingEnd ℂ) (U a b c d) = U b a d c) : (kernelMat U).IsHermitian := by
  ext A B
  rw [Matrix.conjTranspose_apply, kernelMat, kernelMat, Complex.star_def, hH, hU]

theorem kernelMat_conj (U : Operators.T4 n)
    (hH : ∀ a b c d, (starRingEnd ℂ) (U a b c d) = U b a d c) (A B : Fin n × Fin n) :
    kernelMat U A.swap B.swap = (starRingEnd ℂ) (kernelMat U A B) := by
  simp only [kernelMat, hH, Prod.fst_swap, Prod.snd_swap]

/-! ## Forms on hermitian matrices -/

/-- a matrix on pairs that maps hermitian matrices to hermitian matrices -/
def KeepsHermitian (C : Matrix (Fin n × Fin n) (Fin n × Fin n) ℂ) : Prop :=
  ∀ A B : Fin n × Fin n, C A.swap B.swap = (starRingEnd ℂ) (C A B)

theorem KeepsHermitian.mul {C D : Matrix (Fin n × Fin n) (Fin n × Fin n) ℂ} (hC : KeepsHermitian C)
    (hD : KeepsHermitian D) : KeepsHermitian (C * D) := by
  intro A B
  rw [Matrix.mul_apply, Matrix.mul_apply, map_sum, ← Equiv.sum_comp (Equiv.prodComm (Fin n) (Fin n))]
  refine Finset.sum_congr rfl fun X _ => ?_
  rw [Equiv.prodComm_apply, hC, hD, map_mul]

theorem KeepsHermitian.sub {C D : Matrix (Fin n × Fin n) (Fin n × Fin n) ℂ} (hC : KeepsHermitian C)
    (hD : KeepsHermitian D) : KeepsHermitian (C - D) := by
  intro A B
  rw [Matrix.sub_apply, Matrix.sub_apply, hC, hD, map_sub]

/-- the vector of entries of a matrix -/
def asVec (X : Matrix (Fin n) (Fin n) ℂ) : Fin n × Fin n → ℂ := fun A => X A.1 A.2

theorem asMat_asVec (X : Matrix (Fin n) (Fin n) ℂ) : asMat (asVec X) = X := rfl

theorem form_real {C : Matrix (Fin n × Fin n) (Fin n × Fin n) ℂ} (hC : KeepsHermitian C)
    {X Y : Matrix (Fin n) (Fin n) ℂ} (hX : X.IsHermitian) (hY : Y.IsHermitian) :
    (starRingEnd ℂ) (star (asVec X) ⬝ᵥ C.mulVec (asVec Y)) = star (asVec X) ⬝ᵥ C.mulVec (asVec Y) := by
  have hx : ∀ A : Fin n × Fin n, (starRingEnd ℂ) (asVec X A) = asVec X A.swap := fun A => hX.apply A.2 A.1
  have hy : ∀ A : Fin n × Fin n, (starRingEnd ℂ) (asVec Y A) = asVec Y A.swap := fun A => hY.apply A.2 A.1
  simp only [dotProduct, Matrix.mulVec, Pi.star_apply, Complex.star_def, map_sum, map_mul, Complex.conj_conj,
    Finset.mul_sum]
  conv_rhs => rw [← Equiv.sum_comp (Equiv.prodComm (Fin n) (Fin n))]
  refine Finset.sum_congr rfl fun A _ => ?_
  conv_rhs => rw [← Equiv.sum_comp (Equiv.prodComm (Fin n) (Fin n))]
  refine Finset.sum_congr rfl fun B _ => ?_
  simp only [Equiv.prodComm_apply, hC A B, hy, hx, Prod.swap_swap]

/-- positivity of a hermitian form on pairs has to be tested on hermitian matrices only -/
theorem posDef_iff_hermitian {C : Matrix (Fin n × Fin n) (Fin n × Fin n) ℂ} (hH : C.IsHermitian)
    (hC : KeepsHermitian C) : C.PosDef ↔ ∀ Y : Matrix (Fin n) (Fin n) ℂ, Y.IsHermitian → Y ≠ 0 →
      0 < (star (asVec Y) ⬝ᵥ C.mulVec (asVec Y)).re := by
  constructor
  · intro h Y hY h0
    have hne : asVec Y ≠ 0 := fun hc => h0 (by ext i j; exact congrFun hc (i, j))
    exact (Complex.lt_def.1 (h.dotProduct_mulVec_pos hne)).1
  · intro h
    refine Matrix.PosDef.of_dotProduct_mulVec_pos hH fun x hx => ?_
    let X : Matrix (Fin n) (Fin n) ℂ := asMat x
    let R : Matrix (Fin n) (Fin n) ℂ := (1 / 2 : ℂ) • (X + Xᴴ)
    let S : Matrix (Fin n) (Fin n) ℂ := (-Complex.I / 2) • (X - Xᴴ)
    have hR : R.IsHermitian := by
      ext i j
      simp [R, Matrix.conjTranspose_apply]
      ring
    have hS : S.IsHermitian := by
      ext i j
      simp [S, Matrix.conjTranspose_apply]
      ring
    have hx' : x = asVec R + Complex.I • asVec S := by
      funext A
      simp only [Pi.add_apply, Pi.smul_apply, asVec, R, S, Matrix.smul_apply, smul_eq_mul, Matrix.add_apply,
        Matrix.sub_apply, X, asMat]
      linear_combination (1 / 2 : ℂ) * (x (A.1, A.2) - (asMat x)ᴴ A.1 A.2) * Complex.I_mul_I
    have hsym : star (asVec S) ⬝ᵥ C.mulVec (asVec R) = star (asVec R) ⬝ᵥ C.mulVec (asVec S) := by
      rw [← form_real hC hS hR]
      simp only [dotProduct, Matrix.mulVec, Pi.star_apply, Complex.star_def, map_sum, map_mul,
        Complex.conj_conj, Finset.mul_sum]
      rw [Finset.sum_comm]
      refine Finset.sum_congr rfl fun A _ => Finset.sum_congr rfl fun B _ => ?_
      have : (starRingEnd ℂ) (C B A) = C A B := hH.apply A B
      rw [this]
      ring
    have e : star x ⬝ᵥ C.mulVec x = star (asVec R) ⬝ᵥ C.mulVec (asVec R) + star (asVec S) ⬝ᵥ C.mulVec (asVec S) := by
      rw [hx', star_add, star_smul, Matrix.mulVec_add, Matrix.mulVec_smul, add_dotProduct, dotProduct_add,
        dotProduct_add, smul_dotProduct, smul_dotProduct, dotProduct_smul, dotProduct_smul, hsym]
      simp only [smul_eq_mul, Complex.star_def, Complex.conj_I]
      linear_combination (-(star (asVec S) ⬝ᵥ C.mulVec (asVec S))) * Complex.I_mul_I
    have hreal : ∀ Y : Matrix (Fin n) (Fin n) ℂ, Y.IsHermitian →
        star (asVec Y) ⬝ᵥ C.mulVec (asVec Y) = ((star (asVec Y) ⬝ᵥ C.mulVec (asVec Y)).re : ℂ) := fun Y hY =>
      (Complex.conj_eq_iff_re.1 (form_real hC hY hY)).symm
    have hnn : ∀ Y : Matrix (Fin n) (Fin n) ℂ, Y.IsHermitian →
        0 ≤ (star (asVec Y) ⬝ᵥ C.mulVec (asVec Y)).re := by
      intro Y hY
      by_cases h0 : Y = 0
      · subst h0
        have : asVec (0 : Matrix (Fin n) (Fin n) ℂ) = 0 := rfl
        simp [this]
      · exact (h Y hY h0).le
    rw [e, hreal R hR, hreal S hS, ← Complex.ofReal_add, Complex.zero_lt_real]
    by_cases h0 : R = 0
    · have h1 : S ≠ 0 := by
        intro hc
        apply hx
        rw [hx', h0, hc]
        have : asVec (0 : Matrix (Fin n) (Fin n) ℂ) = 0 := rfl
        simp [this]
      exact add_pos_of_nonneg_of_pos (hnn R hR) (h S hS h1)
    · exact add_pos_of_pos_of_nonneg (h R hR h0) (hnn S hS)

/-! ## The second derivative of the grand potential as a form -/

theorem dFermi_isHermitian (beta : ℝ) {h Y : Matrix (Fin n) (Fin n) ℂ} (hh : h.IsHermitian)
    (hY : Y.IsHermitian) : (dFermi beta h Y).IsHermitian := by
  unfold Matrix.IsHermitian
  rw [← dFermi_conjTranspose beta hh, hY.eq]

theorem second_form [Nonempty κ] (b : Base n κ) (hb : 0 < b.beta) (hk : ∀ k, (b.ek k).IsHermitian)
    (U : Operators.T4 n) {Y : Matrix (Fin n) (Fin n) ℂ} (hY : Y.IsHermitian) :
    Matrix.trace ((HartreeFock.meanField U (cellDensity' b.beta b.ek Y 0) - Y) * cellDensity' b.beta b.ek Y 0)
      = star (asVec Y) ⬝ᵥ (fieldMat b - fieldMat b * kernelMat U * fieldMat b).mulVec (asVec Y) := by
  set δ := cellDensity' b.beta b.ek Y 0 with hδ
  have hMy : (fieldMat b).mulVec (asVec Y) = -asVec δ := by
    funext A
    rw [fieldMat_mulVec, asMat_asVec]
    simp only [hδ, cellDensity', Complex.ofReal_zero, zero_smul, add_zero, Pi.neg_apply, asVec, Matrix.smul_apply,
      Matrix.sum_apply, smul_eq_mul, Finset.sum_neg_distrib]
    rw [div_eq_inv_mul]
    ring
  have hδH : δ.IsHermitian := by
    have h1 : ∀ k, (dFermi b.beta (b.ek k + ((0 : ℝ) : ℂ) • Y) Y)ᴴ = dFermi b.beta (b.ek k + ((0 : ℝ) : ℂ) • Y) Y :=
      fun k => dFermi_isHermitian b.beta (line_hermitian (hk k) hY 0) hY
    unfold Matrix.IsHermitian
    rw [hδ, cellDensity', Matrix.conjTranspose_smul, Matrix.conjTranspose_sum, star_inv₀, star_natCast]
    simp only [h1]
  have hMH := (fieldMat_posDef b hb hk).isHermitian
  have hvm : Matrix.vecMul (star (asVec Y)) (fieldMat b) = -star (asVec δ) := by
    have := congrArg star hMy
    rw [Matrix.star_mulVec, hMH.eq, star_neg] at this
    exact this
  have e1 : star (asVec Y) ⬝ᵥ (fieldMat b - fieldMat b * kernelMat U * fieldMat b).mulVec (asVec Y)
      = -(star (asVec Y) ⬝ᵥ asVec δ) - star (asVec δ) ⬝ᵥ (kernelMat U).mulVec (asVec δ) := by
    rw [Matrix.sub_mulVec, dotProduct_sub, hMy, dotProduct_neg, ← Matrix.mulVec_mulVec, ← Matrix.mulVec_mulVec, hMy,
      Matrix.dotProduct_mulVec, hvm, Matrix.mulVec_neg, dotProduct_neg, neg_dotProduct, neg_neg]
  rw [e1, Matrix.sub_mul, Matrix.trace_sub]
  have e2 : Matrix.trace (Y * δ) = star (asVec Y) ⬝ᵥ asVec δ := by
    have h := trace_form Y δ
    rw [hY.eq] at h
    rw [h, dotProduct, Fintype.sum_prod_type]
    rfl
  have e3 : Matrix.trace (HartreeFock.meanField U δ * δ) = -(star (asVec δ) ⬝ᵥ (kernelMat U).mulVec (asVec δ)) := by
    simp only [Matrix.trace, Matrix.diag_apply, Matrix.mul_apply, dotProduct, Pi.star_apply, Complex.star_def,
      Fintype.sum_prod_type, ← Finset.sum_neg_distrib]
    refine Finset.sum_congr rfl fun i _ => Finset.sum_congr rfl fun j _ => ?_
    have h1 : (starRingEnd ℂ) (asVec δ (i, j)) = δ j i := hδH.apply j i
    rw [h1, meanField_eq]
    have h2 : (kernelMat U).mulVec (asVec δ) (i, j) = (toMat U).mulVec (fun B => δ B.1 B.2) (j, i) := rfl
    rw [h2]
    ring
  rw [e2, e3]
  ring

/-! ## C103 -/

theorem mem_modes {eigvals : Matrix (Fin n × Fin n) (Fin n × Fin n) ℂ → List ℂ} (hev : EigvalsSpec eigvals)
    {sorted : List ℂ → List ℂ} (hso : ArgsortSpec sorted) (U chi0 : Operators.T4 n) (m : Option ℝ) :
    m ∈ modeDecomposition eigvals sorted U chi0 ↔
      ∃ z ∈ (toMat chi0 * toMat U).charpoly.roots, m = recip (1 - z.re) := by
  have h : ∀ z, z ∈ (toMat chi0 * toMat U).charpoly.roots ↔ z ∈ eigvals (toMat chi0 * toMat U) := fun z => by
    rw [← hev (toMat chi0 * toMat U)]
    exact Multiset.mem_coe
  simp only [modeDecomposition, List.mem_map, h, (hso _).1.mem_iff, eq_comm]

/-- C103 (product): when the eigenvalues of `chi0 U` are real and the response does not diverge, all modes are
finite numbers and their product is the inverse of `det(1 - chi0 U)`, the denominator of the response. -/
theorem C103_product {eigvals : Matrix (Fin n × Fin n) (Fin n × Fin n) ℂ → List ℂ} (hev : EigvalsSpec eigvals)
    {sorted : List ℂ → List ℂ} (hso : ArgsortSpec sorted) (U chi0 : Operators.T4 n)
    (hre : ∀ z ∈ (toMat chi0 * toMat U).charpoly.roots, z.im = 0)
    (hu : (1 - toMat chi0 * toMat U).det ≠ 0) :
    ∃ l : List ℝ, modeDecomposition eigvals sorted U chi0 = l.map some ∧ l.length = n * n ∧
      ((l.prod : ℝ) : ℂ) * (1 - toMat chi0 * toMat U).det = 1 := by
  set C := toMat chi0 * toMat U with hC
  set L := sorted (eigvals C) with hL
  have hperm : (L : Multiset ℂ) = C.charpoly.roots := by
    rw [← hev C]
    exact Multiset.coe_eq_coe.2 (hso _).1
  have hmem : ∀ z ∈ L, z ∈ C.charpoly.roots := fun z hz => by rw [← hperm]; exact hz
  have hdet := det_one_sub C
  rw [← hperm, Multiset.map_coe, Multiset.prod_coe] at hdet
  have hne : ∀ z ∈ L, 1 - z.re ≠ 0 := by
    intro z hz h0
    apply hu
    rw [hdet]
    refine List.prod_eq_zero (List.mem_map.2 ⟨z, hz, ?_⟩)
    have := hre z (hmem z hz)
    apply Complex.ext
    · simpa using h0
    · simp [this]
  refine ⟨L.map fun z => 1 / (1 - z.re), ?_, ?_, ?_⟩
  · simp only [modeDecomposition, ← hC, ← hL, List.map_map]
    refine List.map_congr_left fun z hz => ?_
    simp only [Function.comp, recip, if_neg (hne z hz)]
  · rw [List.length_map]
    have h1 : Multiset.card (L : Multiset ℂ) = C.charpoly.natDegree := by
      rw [hperm]
      exact (IsAlgClosed.splits C.charpoly).natDegree_eq_card_roots.symm
    rw [Matrix.charpoly_natDegree_eq_dim, Fintype.card_prod, Fintype.card_fin] at h1
    exact h1
  · rw [hdet]
    have key : ∀ L' : List ℂ, (∀ z ∈ L', z.im = 0) → (∀ z ∈ L', 1 - z.re ≠ 0) →
        (((L'.map fun z => 1 / (1 - z.re)).prod : ℝ) : ℂ) * (L'.map fun z => 1 - z).prod = 1 := by
      intro L' h1 h2
      induction L' with
      | nil => simp
      | cons z l ih =>
        have ih' := ih (fun y hy => h1 y (List.mem_cons_of_mem _ hy)) (fun y hy => h2 y (List.mem_cons_of_mem _ hy))
        have hz : z = ((z.re : ℝ) : ℂ) := Complex.ext rfl (by simp [h1 z List.mem_cons_self])
        have hz2 := h2 z List.mem_cons_self
        rw [List.map_cons, List.map_cons, List.prod_cons, List.prod_cons]
        have h3 : ((1 / (1 - z.re) : ℝ) : ℂ) * (1 - z) = 1 := by
          conv_lhs => rw [hz]
          rw [← Complex.ofReal_one, ← Complex.ofReal_sub, ← Complex.ofReal_mul, Complex.ofReal_re]
          norm_cast
          field_simp
        rw [Complex.ofReal_mul, mul_mul_mul_comm, h3, ih', one_mul]
    exact key L (fun z hz => hre z (hmem z hz)) hne

/-- C103 (divergence): for real eigenvalues a mode is reported as infinite exactly when the matrix that the
response inverts is singular. -/
theorem C103_divergence {eigvals : Matrix (Fin n × Fin n) (Fin n × Fin n) ℂ → List ℂ} (hev : EigvalsSpec eigvals)
    {sorted : List ℂ → List ℂ} (hso : ArgsortSpec sorted) (U chi0 : Operators.T4 n)
    (hre : ∀ z ∈ (toMat chi0 * toMat U).charpoly.roots, z.im = 0) :
    none ∈ modeDecomposition eigvals sorted U chi0 ↔ (1 - toMat chi0 * toMat U).det = 0 := by
  constructor
  · intro h
    obtain ⟨z, hz, hm⟩ := (mem_modes hev hso U chi0 none).1 h
    have h0 : 1 - z.re = 0 := by
      by_contra hc
      rw [recip, if_neg hc] at hm
      cases hm
    rw [det_one_sub]
    refine Multiset.prod_eq_zero (Multiset.mem_map.2 ⟨z, hz, Complex.ext ?_ ?_⟩)
    · simpa using h0
    · simp [hre z hz]
  · intro h
    by_contra hc
    rw [det_one_sub, Multiset.prod_eq_zero_iff, Multiset.mem_map] at h
    obtain ⟨z, hz, h1⟩ := h
    refine hc ((mem_modes hev hso U chi0 none).2 ⟨z, hz, ?_⟩)
    have : 1 - z.re = 0 := by
      have := congrArg Complex.re h1
      simpa using this
    rw [recip, if_pos this]

/-- C103 (enhancement): a field whose bare response is an eigenvector of `chi0 U` with the real eigenvalue
`x ≠ 1` has as full response the bare response times one of the returned modes. -/
theorem C103_enhancement (eig : Lindhard.Eig (Fin n)) (b : Base n κ)
    {eigvals : Matrix (Fin n × Fin n) (Fin n × Fin n) ℂ → List ℂ} (hev : EigvalsSpec eigvals)
    {sorted : List ℂ → List ℂ} (hso : ArgsortSpec sorted) (U : Operators.T4 n)
    (hu : (1 - toMat (hfrOf eig U b).chi0 * toMat U).det ≠ 0) (x : ℝ) (F : Matrix (Fin n) (Fin n) ℂ)
    (v : Fin n × Fin n → ℂ) (hv : v ≠ 0)
    (hbare : ∀ a c, v (a, c) = ∑ d, ∑ f, (hfrOf eig U b).chi0 a c d f * F d f)
    (hx : (toMat (hfrOf eig U b).chi0 * toMat U).mulVec v = (x : ℂ) • v) :
    ∃ m : ℝ, some m ∈ modeDecomposition eigvals sorted U (hfrOf eig U b).chi0 ∧
      ∀ a c, ∑ d, ∑ f, (hfrOf eig U b).chi a c d f * F d f
        = (m : ℂ) * ∑ d, ∑ f, (hfrOf eig U b).chi0 a c d f * F d f := by
  set X := toMat (hfrOf eig U b).chi0 with hX
  have hroot : ((x : ℝ) : ℂ) ∈ (X * toMat U).charpoly.roots := (mem_roots_iff _ _).2 ⟨v, hv, hx⟩
  have hx1 : 1 - x ≠ 0 := by
    intro h0
    apply hu
    rw [det_one_sub]
    refine Multiset.prod_eq_zero (Multiset.mem_map.2 ⟨(x : ℂ), hroot, ?_⟩)
    exact_mod_cast h0
  refine ⟨1 / (1 - x), (mem_modes hev hso _ _ _).2 ⟨(x : ℂ), hroot, ?_⟩, ?_⟩
  · rw [recip, Complex.ofReal_re, if_neg hx1]
  have hvF : v = X.mulVec (asVec F) := by
    funext A
    rw [show v A = v (A.1, A.2) from rfl, hbare]
    simp only [Matrix.mulVec, dotProduct, Fintype.sum_prod_type]
    rfl
  have hinv : (1 - X * toMat U)⁻¹.mulVec v = ((1 / (1 - x) : ℝ) : ℂ) • v := by
    have h1 : (1 - X * toMat U).mulVec v = ((1 - x : ℝ) : ℂ) • v := by
      rw [Matrix.sub_mulVec, Matrix.one_mulVec, hx]
      push_cast
      rw [sub_smul, one_smul]
    have h2 := congrArg ((1 - X * toMat U)⁻¹.mulVec) h1
    rw [Matrix.mulVec_mulVec, Matrix.nonsing_inv_mul _ (isUnit_iff_ne_zero.2 hu), Matrix.one_mulVec,
      Matrix.mulVec_smul] at h2
    conv_rhs => rw [h2]
    rw [smul_smul, ← Complex.ofReal_mul, one_div, inv_mul_cancel₀ hx1, Complex.ofReal_one, one_smul]
  have hchi : ∀ A, ((1 - X * toMat U)⁻¹ * X).mulVec (asVec F) A = ((1 / (1 - x) : ℝ) : ℂ) * X.mulVec (asVec F) A := by
    intro A
    rw [← Matrix.mulVec_mulVec, ← hvF, hinv]
    rfl
  intro a c
  have h3 := hchi (a, c)
  simp only [Matrix.mulVec, dotProduct, Fintype.sum_prod_type] at h3
  exact h3

/-- The tensor of the bare response in the limit of a vanishing finite difference step. -/
def BareLimit (eig : Lindhard.Eig (Fin n)) (s : Solver n κ) (X0 : Operators.T4 n) : Prop :=
  ∀ a b c d, Tendsto (fun eps => (hfrOf eig s.U (baseInit s eps)).chi0 a b c d) (𝓝[≠] 0) (𝓝 (X0 a b c d))

theorem bareLimit_eq {eig : Lindhard.Eig (Fin n)} (hs : Lindhard.EigSpec eig) (s : Solver n κ)
    (hk : ∀ k, (s.ekMF k).IsHermitian) (hreal : ∀ k a b, (s.ekMF k a b).im = 0) {X0 : Operators.T4 n}
    (hX : BareLimit eig s X0) : X0 = chi0Lim (baseInit s 0) := by
  funext a b c d
  exact tendsto_nhds_unique (hX a b c d) (chi0_tendsto hs (baseInit s 0) (base_hermitian s hk)
    (base_symm s hk hreal) a b c d)

/-- C103 (real): for a real mean field Hamiltonian and the interaction of a self-adjoint operator, the
eigenvalues of `chi0 U` are real in the limit of a vanishing step, so that dropping their imaginary parts loses
nothing. -/
theorem C103_real [Nonempty κ] {eig : Lindhard.Eig (Fin n)} (hs : Lindhard.EigSpec eig) (s : Solver n κ)
    (hb : 0 < s.beta) (hk : ∀ k, (s.ekMF k).IsHermitian) (hreal : ∀ k a b, (s.ekMF k a b).im = 0)
    (hU : ∀ a b c d, s.U c d a b = s.U a b c d)
    (hH : ∀ a b c d, (starRingEnd ℂ) (s.U a b c d) = s.U b a d c)
    {X0 : Operators.T4 n} (hX : BareLimit eig s X0) :
    ∀ z ∈ (toMat X0 * toMat s.U).charpoly.roots, z.im = 0 := by
  rw [bareLimit_eq hs s hk hreal hX, chi0U_eq (baseInit s 0) hb (base_hermitian s hk)]
  exact (posDef_mul_hermitian (fieldMat_posDef (baseInit s 0) hb (base_hermitian s hk))
    (kernelMat_hermitian s.U hU hH)).1

/-- C103 (stability). Let the solver hold the mean field dispersion of a self-consistent density matrix. Then
the variational grand potential is stationary at this solution, and, in the limit of a vanishing step, all modes
returned by `mode_decomposition` are finite and positive exactly when the second derivative of the grand
potential is positive along every hermitian trial field. -/
theorem C103_stability [Nonempty κ] {eig : Lindhard.Eig (Fin n)} (hs : Lindhard.EigSpec eig) (s : Solver n κ)
    (hb : 0 < s.beta) (hk : ∀ k, (s.ekMF k).IsHermitian) (hreal : ∀ k a b, (s.ekMF k a b).im = 0)
    (hU : ∀ a b c d, s.U c d a b = s.U a b c d)
    (hH : ∀ a b c d, (starRingEnd ℂ) (s.U a b c d) = s.U b a d c)
    (e : κ → Matrix (Fin n) (Fin n) ℂ) (ρ : Matrix (Fin n) (Fin n) ℂ)
    (hmf : ∀ k, s.ekMF k = e k + HartreeFock.meanField s.U ρ)
    (hsc : SelfConsistent s.beta s.mu e s.U 0 ρ)
    {eigvals : Matrix (Fin n × Fin n) (Fin n × Fin n) ℂ → List ℂ} (hev : EigvalsSpec eigvals)
    {sorted : List ℂ → List ℂ} (hso : ArgsortSpec sorted) {X0 : Operators.T4 n} (hX : BareLimit eig s X0) :
    (∀ Y : Matrix (Fin n) (Fin n) ℂ, Y.IsHermitian → ∃ f : ℝ → ℝ,
      (∀ t : ℝ, HasDerivAt (fun r : ℝ => grandPotential s.beta s.mu e s.U fun k =>
        s.ekMF k - (s.mu : ℂ) • 1 + (r : ℂ) • Y) (f t) t) ∧ f 0 = 0 ∧ DifferentiableAt ℝ f 0) ∧
    ((∀ m ∈ modeDecomposition eigvals sorted s.U X0, ∃ r : ℝ, m = some r ∧ 0 < r) ↔
      ∀ Y : Matrix (Fin n) (Fin n) ℂ, Y.IsHermitian → Y ≠ 0 →
        0 < deriv (deriv fun r : ℝ => grandPotential s.beta s.mu e s.U fun k =>
          s.ekMF k - (s.mu : ℂ) • 1 + (r : ℂ) • Y) 0) := by
  have hk' := base_hermitian s hk
  set b := baseInit s 0 with hbdef
  set V0 := HartreeFock.meanField s.U ρ with hV0
  have hek : ∀ k, s.ekMF k - (s.mu : ℂ) • 1 = e k + V0 - (s.mu : ℂ) • 1 := fun k => by rw [hmf k]
  have hfun : b.ek = fun k => e k + V0 - (s.mu : ℂ) • 1 := funext hek
  have hh : ∀ k, (e k + V0 - (s.mu : ℂ) • 1).IsHermitian := fun k => by rw [← hek k]; exact hk' k
  have hρ : cellDensity s.beta (fun k => e k + V0 - (s.mu : ℂ) • 1) = ρ := by
    have h1 : ρ = (Fintype.card κ : ℂ)⁻¹ • ∑ k, fermiMatrix s.beta (e k + V0 - (s.mu : ℂ) • 1 + 0) := hsc
    simp only [add_zero] at h1
    exact h1.symm
  -- derivatives
  have hd1 : ∀ Y : Matrix (Fin n) (Fin n) ℂ, Y.IsHermitian → ∀ t : ℝ,
      HasDerivAt (fun r : ℝ => grandPotential s.beta s.mu e s.U fun k =>
        s.ekMF k - (s.mu : ℂ) • 1 + (r : ℂ) • Y)
      (Matrix.trace ((HartreeFock.meanField s.U (cellDensity s.beta fun k => e k + V0 - (s.mu : ℂ) • 1 + (t : ℂ) • Y)
        - V0 - (t : ℂ) • Y) * cellDensity' s.beta (fun k => e k + V0 - (s.mu : ℂ) • 1) Y t)).re t := by
    intro Y hY t
    simp only [hek]
    exact grandPotential_hasDerivAt hb s.mu e s.U hU V0 hh hY t
  have hW0 : ∀ Y : Matrix (Fin n) (Fin n) ℂ,
      HartreeFock.meanField s.U (cellDensity s.beta fun k => e k + V0 - (s.mu : ℂ) • 1 + ((0 : ℝ) : ℂ) • Y)
        - V0 - ((0 : ℝ) : ℂ) • Y = 0 := by
    intro Y
    simp only [Complex.ofReal_zero, zero_smul, add_zero, sub_zero, hρ]
    exact sub_self _
  have hd2 : ∀ Y : Matrix (Fin n) (Fin n) ℂ, Y.IsHermitian →
      HasDerivAt (fun t : ℝ => (Matrix.trace ((HartreeFock.meanField s.U
        (cellDensity s.beta fun k => e k + V0 - (s.mu : ℂ) • 1 + (t : ℂ) • Y)
        - V0 - (t : ℂ) • Y) * cellDensity' s.beta (fun k => e k + V0 - (s.mu : ℂ) • 1) Y t)).re)
      (Matrix.trace ((HartreeFock.meanField s.U (cellDensity' s.beta b.ek Y 0) - Y)
        * cellDensity' s.beta b.ek Y 0)).re 0 := by
    intro Y hY
    have h1 : HasDerivAt (fun t : ℝ => HartreeFock.meanField s.U
        (cellDensity s.beta fun k => e k + V0 - (s.mu : ℂ) • 1 + (t : ℂ) • Y) - V0 - (t : ℂ) • Y)
        (HartreeFock.meanField s.U (cellDensity' s.beta (fun k => e k + V0 - (s.mu : ℂ) • 1) Y 0) - Y) 0 := by
      have h2 := (meanField_hasDerivAt s.U (cellDensity_hasDerivAt s.beta hh hY 0)).sub_const V0
      have h3 : HasDerivAt (fun t : ℝ => (t : ℂ) • Y) Y 0 := by
        have h4 : HasDerivAt (fun t : ℝ => (t : ℂ)) 1 0 := Complex.ofRealCLM.hasDerivAt
        exact (h4.smul_const Y).congr_deriv (by simp)
      exact h2.sub h3
    rw [hfun]
    exact trace_mul_hasDerivAt h1 (hW0 Y) (cellDensity'_continuousAt s.beta Y hh)
  refine ⟨fun Y hY => ⟨_, hd1 Y hY, ?_, (hd2 Y hY).differentiableAt⟩, ?_⟩
  · rw [hW0 Y, Matrix.zero_mul, Matrix.trace_zero, Complex.zero_re]
  have hsecond : ∀ Y : Matrix (Fin n) (Fin n) ℂ, Y.IsHermitian →
      deriv (deriv fun r : ℝ => grandPotential s.beta s.mu e s.U fun k =>
        s.ekMF k - (s.mu : ℂ) • 1 + (r : ℂ) • Y) 0
      = (star (asVec Y) ⬝ᵥ (fieldMat b - fieldMat b * kernelMat s.U * fieldMat b).mulVec (asVec Y)).re := by
    intro Y hY
    rw [funext fun t => (hd1 Y hY t).deriv, (hd2 Y hY).deriv, ← second_form b hb hk' s.U hY]
    rfl
  have hM := fieldMat_posDef b hb hk'
  have hK := kernelMat_hermitian s.U hU hH
  have hMK : KeepsHermitian (fieldMat b) := fieldMat_conj b hk'
  have hKK : KeepsHermitian (kernelMat s.U) := kernelMat_conj s.U hH
  have hCH : (fieldMat b - fieldMat b * kernelMat s.U * fieldMat b).IsHermitian := by
    unfold Matrix.IsHermitian
    rw [Matrix.conjTranspose_sub, Matrix.conjTranspose_mul, Matrix.conjTranspose_mul, hM.isHermitian.eq, hK.eq,
      Matrix.mul_assoc]
  obtain ⟨hre, hiff⟩ := posDef_mul_hermitian hM hK
  have hroots : toMat X0 * toMat s.U = fieldMat b * kernelMat s.U := by
    rw [bareLimit_eq hs s hk hreal hX]
    exact chi0U_eq b hb hk' s.U
  have hmodes : (∀ m ∈ modeDecomposition eigvals sorted s.U X0, ∃ r : ℝ, m = some r ∧ 0 < r) ↔
      ∀ z ∈ (fieldMat b * kernelMat s.U).charpoly.roots, z.re < 1 := by
    simp only [mem_modes hev hso, hroots]
    constructor
    · intro h z hz
      obtain ⟨r, h1, h2⟩ := h _ ⟨z, hz, rfl⟩
      by_cases h0 : 1 - z.re = 0
      · rw [recip, if_pos h0] at h1
        cases h1
      · rw [recip, if_neg h0, Option.some_inj] at h1
        rw [← h1, one_div, inv_pos] at h2
        linarith
    · rintro h m ⟨z, hz, rfl⟩
      have h1 : 0 < 1 - z.re := by linarith [h z hz]
      exact ⟨1 / (1 - z.re), by rw [recip, if_neg h1.ne'], by positivity⟩
  rw [hmodes, hiff, posDef_iff_hermitian hCH (hMK.sub ((hMK.mul hKK).mul hMK))]
  exact forall_congr' fun Y => forall_congr' fun hY => forall_congr' fun _ => by rw [hsecond Y hY]

end Verif.HfResponse
