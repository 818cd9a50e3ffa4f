import Verif.Eliashberg.Props
import Mathlib.Analysis.Matrix.Order
import Mathlib.LinearAlgebra.Matrix.Charpoly.Coeff
import Mathlib.LinearAlgebra.Matrix.ToLinearEquiv

/-!
# C112: the eigenvalues of the linearised Eliashberg equation

`implicitly_restarted_arnoldi_method` returns the real parts of the eigenvalues
(`/repo/python/triqs_tprf/eliashberg.py:333`).
-/

noncomputable section

namespace Verif.Eliashberg

open Complex Matrix Verif.Parallel Verif.Fourier Verif.Bubble Verif.Gw
open scoped ComplexOrder

set_option linter.unusedSectionVars false

/-- `Es = Es.real`, `/repo/python/triqs_tprf/eliashberg.py:329-335`; `found` are the eigenvalues and vectors that `eigs`
returns. -/
def arnoldiResult {V : Type*} (found : List (ℂ × V)) : List (ℝ × V) := found.map fun p => (p.1.re, p.2)

/-! ## Linear algebra -/

/-- a matrix applied to `F`, where `F` depends on `v` through a form -/
theorem eig_form {X : Type*} [Fintype X] (K : Matrix X X ℂ) (v F : X → ℂ) (lam : ℂ)
    (h : ∀ x, lam * v x = ∑ y, K x y * F y) : lam * ∑ x, star (F x) * v x = star F ⬝ᵥ (K *ᵥ F) := by
  rw [Finset.mul_sum]
  refine Finset.sum_congr rfl fun x _ => ?_
  rw [mul_left_comm, h]
  rfl

theorem eig_cases {X : Type*} [Fintype X] (K : Matrix X X ℂ) (v F : X → ℂ) (lam : ℂ)
    (h : ∀ x, lam * v x = ∑ y, K x y * F y) (hv : ∃ x, v x ≠ 0) (hr : 0 ≤ ∑ x, star (F x) * v x)
    (h0 : ∑ x, star (F x) * v x = 0 → ∀ x, F x = 0) :
    lam = 0 ∨ ∃ r : ℝ, 0 < r ∧ lam * r = star F ⬝ᵥ (K *ᵥ F) := by
  have e := eig_form K v F lam h
  by_cases hz : ∑ x, star (F x) * v x = 0
  · left
    obtain ⟨x, hx⟩ := hv
    have := h x
    rw [Finset.sum_eq_zero (fun y _ => by rw [h0 hz y, mul_zero])] at this
    exact (mul_eq_zero.1 this).resolve_right hx
  · right
    obtain ⟨h1, h2⟩ := Complex.nonneg_iff.1 hr
    have h3 : ∑ x, star (F x) * v x = (((∑ x, star (F x) * v x).re : ℝ) : ℂ) :=
      Complex.ext rfl (by rw [ofReal_im]; exact h2.symm)
    refine ⟨(∑ x, star (F x) * v x).re, lt_of_le_of_ne h1 fun h4 => hz ?_, ?_⟩
    · rw [h3, ← h4, ofReal_zero]
    · rw [← h3, e]

theorem eig_real {X : Type*} [Fintype X] (K : Matrix X X ℂ) (hK : K.IsHermitian) (v F : X → ℂ) (lam : ℂ)
    (h : ∀ x, lam * v x = ∑ y, K x y * F y) (hv : ∃ x, v x ≠ 0) (hr : 0 ≤ ∑ x, star (F x) * v x)
    (h0 : ∑ x, star (F x) * v x = 0 → ∀ x, F x = 0) : lam.im = 0 := by
  rcases eig_cases K v F lam h hv hr h0 with h1 | ⟨r, hr, h1⟩
  · rw [h1]; rfl
  · have h2 := congrArg Complex.im h1
    have h3 : (star F ⬝ᵥ K *ᵥ F).im = 0 := hK.im_star_dotProduct_mulVec_self F
    rw [h3, mul_im, ofReal_re, ofReal_im, mul_zero, zero_add] at h2
    exact (mul_eq_zero.1 h2).resolve_right hr.ne'

/-- the spectrum of a product of a hermitian matrix that is symmetric under a relabelling with a matrix whose adjoint is its
relabelling is closed under complex conjugation -/
theorem eig_pairs {X : Type*} [Fintype X] [DecidableEq X] (K D : Matrix X X ℂ) (e : X ≃ X) (hK : K.IsHermitian)
    (hKe : ∀ x y, K (e x) (e y) = K x y) (hD : ∀ x y, star (D y x) = D (e x) (e y)) (lam : ℂ)
    (h : ∃ v, v ≠ 0 ∧ (K * D) *ᵥ v = lam • v) : ∃ v, v ≠ 0 ∧ (K * D) *ᵥ v = star lam • v := by
  have key : ∀ (M : Matrix X X ℂ) (t : ℂ), (∃ v, v ≠ 0 ∧ M *ᵥ v = t • v) ↔ M.charpoly.eval t = 0 := by
    intro M t
    rw [Matrix.eval_charpoly, ← Matrix.exists_mulVec_eq_zero_iff]
    refine exists_congr fun v => and_congr_right fun _ => ?_
    rw [Matrix.sub_mulVec, sub_eq_zero]
    have : Matrix.scalar X t *ᵥ v = t • v := by
      rw [Matrix.scalar_apply, ← Matrix.smul_one_eq_diagonal, Matrix.smul_mulVec, Matrix.one_mulVec]
    rw [this, eq_comm]
  rw [key] at h ⊢
  have h1 : (K * D)ᴴ.charpoly = (K * D).charpoly := by
    have h2 : Dᴴ = D.submatrix e e := by
      ext x y
      exact hD x y
    have h3 : K = K.submatrix e e := by
      ext x y
      exact (hKe x y).symm
    rw [Matrix.conjTranspose_mul, hK.eq, h2]
    conv_lhs => rw [h3, Matrix.submatrix_mul_equiv]
    have h4 : (D * K).submatrix e e = Matrix.reindex e.symm e.symm (D * K) := rfl
    rw [h4, Matrix.charpoly_reindex, Matrix.charpoly_mul_comm]
  have h5 : (K * D)ᴴ.charpoly.eval (star lam) = star ((K * D).charpoly.eval lam) := by
    rw [Matrix.eval_charpoly, Matrix.eval_charpoly, ← Matrix.det_conjTranspose, Matrix.conjTranspose_sub,
      Matrix.scalar_apply, Matrix.scalar_apply, Matrix.diagonal_conjTranspose]
    rfl
  rw [h1] at h5
  rw [h5, h, star_zero]

/-! ## The kernel of the product -/

variable {d : ℕ} {n : Fin d → ℕ} [∀ i, NeZero (n i)] {o : Type*} [Fintype o] [DecidableEq o]

/-- points of the mesh of the gap and orbital indices -/
abbrev GapIdx (N : ℕ) (n : Fin d → ℕ) (o : Type*) := {m // m ∈ window N} × Lat n × o × o

/-- a gap as a vector -/
def gapVec (N : ℕ) (delta : ℤ → Lat n → o → o → ℂ) : GapIdx N n o → ℂ := fun x => delta x.1 x.2.1 x.2.2.1 x.2.2.2

/-- the vertex as a matrix -/
def vertexMat (beta : ℝ) (N : ℕ) (gamma : ℤ → Lat n → T4 o) : Matrix (GapIdx N n o) (GapIdx N n o) ℂ :=
  Matrix.of fun x y => -(1 / 2) * gamma (x.1 - y.1) (x.2.1 - y.2.1) y.2.2.2 x.2.2.1 y.2.2.1 x.2.2.2
    / (beta * Fintype.card (Lat n))

theorem sumValue_mat (beta : ℝ) (N : ℕ) (gamma : ℤ → Lat n → T4 o) (g delta : ℤ → Lat n → o → o → ℂ)
    (x : GapIdx N n o) : sumValue beta N gamma g delta x.1 x.2.1 x.2.2.1 x.2.2.2
      = ∑ y, vertexMat beta N gamma x y * gapVec N (pairF g delta) y := by
  rw [sumValue, Fintype.sum_prod_type, Finset.sum_div, ← Finset.sum_coe_sort]
  refine Finset.sum_congr rfl fun m _ => ?_
  rw [Fintype.sum_prod_type, Finset.sum_div]
  refine Finset.sum_congr rfl fun q _ => ?_
  rw [Fintype.sum_prod_type, gammaF, Finset.sum_comm, Finset.sum_div]
  refine Finset.sum_congr rfl fun e _ => ?_
  rw [Finset.sum_div]
  refine Finset.sum_congr rfl fun f _ => ?_
  simp only [vertexMat, gapVec, Matrix.of_apply]
  ring

/-- The vertex is hermitian: `Γ_{abcd}(-iω, -k) = conj Γ_{dcba}(iω, k)`. -/
def HermitianVertex (gamma : ℤ → Lat n → T4 o) : Prop :=
  ∀ l q a b c d, gamma (-l) (-q) a b c d = (starRingEnd ℂ) (gamma l q d c b a)

theorem vertexMat_hermitian (beta : ℝ) (N : ℕ) {gamma : ℤ → Lat n → T4 o} (h : HermitianVertex gamma) :
    (vertexMat beta N gamma).IsHermitian := by
  ext x y
  simp only [vertexMat, Matrix.conjTranspose_apply, Matrix.of_apply]
  rw [star_div₀, star_mul', star_mul', Complex.star_def, ← h]
  simp only [neg_sub]
  have h2 : (starRingEnd ℂ) (-(1 / 2) : ℂ) = -(1 / 2) := by
    rw [show (-(1 / 2) : ℂ) = ((-(1 / 2) : ℝ) : ℂ) by push_cast; ring, Complex.conj_ofReal]
  rw [h2]
  simp

/-- how the pair function depends on the gap at one frequency and momentum,
`F_{dc} = Σ_{ef} G_{cf}(k) conj G_{ed}(-k) Δ_{ef}` -/
def pairMatrix (g : ℤ → Lat n → o → o → ℂ) (m : ℤ) (q : Lat n) : Matrix (o × o) (o × o) ℂ :=
  Matrix.of fun x y => g m q x.2 y.2 * (starRingEnd ℂ) (g m (-q) y.1 x.1)

theorem pairF_mat (g delta : ℤ → Lat n → o → o → ℂ) (m : ℤ) (q : Lat n) (x : o × o) :
    pairF g delta m q x.1 x.2 = (pairMatrix g m q *ᵥ fun y => delta m q y.1 y.2) x := by
  rw [pairF, gdgPoint, Matrix.mulVec, dotProduct, Fintype.sum_prod_type]
  rfl

/-- the value and eigenvalue equation of the product -/
def IsEigen (beta : ℝ) (N : ℕ) (gamma : ℤ → Lat n → T4 o) (g : ℤ → Lat n → o → o → ℂ) (lam : ℂ)
    (delta : ℤ → Lat n → o → o → ℂ) : Prop :=
  (∃ m ∈ window N, ∃ k a b, delta m k a b ≠ 0) ∧
    ∀ m ∈ window N, ∀ k a b, sumValue beta N gamma g delta m k a b = lam * delta m k a b

theorem form_sum (N : ℕ) (g delta : ℤ → Lat n → o → o → ℂ) :
    ∑ x, star (gapVec N (pairF g delta) x) * gapVec N delta x
      = ∑ p : {m // m ∈ window N} × Lat n, star ((pairMatrix g p.1 p.2 *ᵥ fun y => delta p.1 p.2 y.1 y.2))
          ⬝ᵥ fun y => delta p.1 p.2 y.1 y.2 := by
  rw [Fintype.sum_prod_type, Fintype.sum_prod_type]
  refine Finset.sum_congr rfl fun m _ => ?_
  rw [Fintype.sum_prod_type]
  refine Finset.sum_congr rfl fun q _ => ?_
  rw [dotProduct]
  refine Finset.sum_congr rfl fun x _ => ?_
  rw [Pi.star_apply, ← pairF_mat]
  rfl

theorem eigen_cases {beta : ℝ} {N : ℕ} {gamma : ℤ → Lat n → T4 o} {g : ℤ → Lat n → o → o → ℂ}
    (hg : ∀ m ∈ window N, ∀ q, (pairMatrix g m q).PosSemidef) {lam : ℂ} {delta : ℤ → Lat n → o → o → ℂ}
    (h : IsEigen beta N gamma g lam delta) :
    (∀ x, lam * gapVec N delta x = ∑ y, vertexMat beta N gamma x y * gapVec N (pairF g delta) y) ∧
      (∃ x, gapVec N delta x ≠ 0) ∧ 0 ≤ ∑ x, star (gapVec N (pairF g delta) x) * gapVec N delta x ∧
      (∑ x, star (gapVec N (pairF g delta) x) * gapVec N delta x = 0 → ∀ x, gapVec N (pairF g delta) x = 0) := by
  obtain ⟨⟨m, hm, k, a, b, h0⟩, h1⟩ := h
  have hpos : ∀ p : {m // m ∈ window N} × Lat n, 0 ≤ star (pairMatrix g p.1 p.2 *ᵥ fun y => delta p.1 p.2 y.1 y.2)
      ⬝ᵥ fun y => delta p.1 p.2 y.1 y.2 := by
    intro p
    have hp := hg p.1 p.1.2 p.2
    rw [Matrix.star_mulVec, hp.1.eq, ← Matrix.dotProduct_mulVec]
    exact hp.dotProduct_mulVec_nonneg _
  refine ⟨fun x => ?_, ⟨(⟨m, hm⟩, k, a, b), h0⟩, ?_, fun hz x => ?_⟩
  · rw [← sumValue_mat, h1 _ x.1.2]
    rfl
  · rw [form_sum]
    exact Finset.sum_nonneg fun p _ => hpos p
  · rw [form_sum, Finset.sum_eq_zero_iff_of_nonneg fun p _ => hpos p] at hz
    have h2 := hz (x.1, x.2.1) (Finset.mem_univ _)
    have hp := hg x.1 x.1.2 x.2.1
    simp only at h2
    rw [Matrix.star_mulVec, hp.1.eq, ← Matrix.dotProduct_mulVec, hp.dotProduct_mulVec_zero_iff] at h2
    have h3 := congrFun h2 x.2.2
    rw [← pairF_mat] at h3
    exact h3

/-! ## C112 -/

/-- **C112 (part).**  With a hermitian vertex all eigenvalues of the Eliashberg product are real if the pair propagator is
positive at every frequency and momentum. -/
theorem C112_positive_partial {ranks : ℕ} (hr : 0 < ranks) {N Ng NG : ℕ} (hN : N ≤ Ng) (hG : 4 * N ≤ 2 * NG - 1)
    (beta : ℝ) {lat : List (Lat n)} (hc : Complete lat) {gamma : ℤ → Lat n → T4 o} (hv : HermitianVertex gamma)
    {g : ℤ → Lat n → o → o → ℂ} (hg : ∀ m ∈ window N, ∀ q, (pairMatrix g m q).PosSemidef)
    {lam : ℂ} {delta : ℤ → Lat n → o → o → ℂ} (hne : ∃ m ∈ window N, ∃ k a b, delta m k a b ≠ 0)
    {out : ℤ → Lat n → o → o → ℂ} (hout : eliashbergProduct ranks N Ng NG beta lat gamma g delta = .ok out)
    (heig : ∀ m ∈ window N, ∀ k a b, out m k a b = lam * delta m k a b) : lam.im = 0 := by
  rw [eliashbergProduct_ok hr hN hG beta hc] at hout
  injection hout with hout
  subst hout
  obtain ⟨h1, h2, h3, h4⟩ := eigen_cases hg (gamma := gamma) (beta := beta) ⟨hne, heig⟩
  exact eig_real _ (vertexMat_hermitian beta N hv) _ _ lam h1 h2 h3 h4

/-- one orbital: the pair propagator is `G(k) conj G(-k)` -/
theorem pairMatrix_unique [Unique o] {g : ℤ → Lat n → o → o → ℂ} (hg : ∀ m q a b, g m (-q) a b = g m q a b) (m : ℤ)
    (q : Lat n) : (pairMatrix g m q).PosSemidef := by
  have e : pairMatrix g m q = Matrix.diagonal fun _ => g m q default default * star (g m q default default) := by
    ext x y
    obtain ⟨x1, x2⟩ := x
    obtain ⟨y1, y2⟩ := y
    rw [Matrix.diagonal_apply, if_pos (Prod.ext (Subsingleton.elim _ _) (Subsingleton.elim _ _)), pairMatrix,
      Matrix.of_apply, hg]
    rw [Unique.eq_default x1, Unique.eq_default x2, Unique.eq_default y1, Unique.eq_default y2]
    rfl
  rw [e]
  exact Matrix.PosSemidef.diagonal fun _ => mul_star_self_nonneg _

/-- **C112 (part).**  For one orbital and `G(-k) = G(k)` all eigenvalues are real. -/
theorem C112_single_partial [Unique o] {ranks : ℕ} (hr : 0 < ranks) {N Ng NG : ℕ} (hN : N ≤ Ng)
    (hG : 4 * N ≤ 2 * NG - 1) (beta : ℝ) {lat : List (Lat n)} (hc : Complete lat) {gamma : ℤ → Lat n → T4 o}
    (hv : HermitianVertex gamma) {g : ℤ → Lat n → o → o → ℂ} (hg : ∀ m q a b, g m (-q) a b = g m q a b)
    {lam : ℂ} {delta : ℤ → Lat n → o → o → ℂ} (hne : ∃ m ∈ window N, ∃ k a b, delta m k a b ≠ 0)
    {out : ℤ → Lat n → o → o → ℂ} (hout : eliashbergProduct ranks N Ng NG beta lat gamma g delta = .ok out)
    (heig : ∀ m ∈ window N, ∀ k a b, out m k a b = lam * delta m k a b) : lam.im = 0 :=
  C112_positive_partial hr hN hG beta hc hv (fun m _ q => pairMatrix_unique hg m q) hne hout heig

/-- **C112 (part).**  Then nothing is lost when `implicitly_restarted_arnoldi_method` takes the real parts. -/
theorem C112_arnoldi_partial [Unique o] {ranks : ℕ} (hr : 0 < ranks) {N Ng NG : ℕ} (hN : N ≤ Ng)
    (hG : 4 * N ≤ 2 * NG - 1) (beta : ℝ) {lat : List (Lat n)} (hc : Complete lat) {gamma : ℤ → Lat n → T4 o}
    (hv : HermitianVertex gamma) {g : ℤ → Lat n → o → o → ℂ} (hg : ∀ m q a b, g m (-q) a b = g m q a b)
    (found : List (ℂ × (ℤ → Lat n → o → o → ℂ)))
    (hf : ∀ p ∈ found, (∃ m ∈ window N, ∃ k a b, p.2 m k a b ≠ 0) ∧
      ∃ out, eliashbergProduct ranks N Ng NG beta lat gamma g p.2 = .ok out ∧
        ∀ m ∈ window N, ∀ k a b, out m k a b = p.1 * p.2 m k a b) :
    (arnoldiResult found).map (fun p => ((p.1 : ℂ), p.2)) = found := by
  rw [arnoldiResult, List.map_map]
  conv_rhs => rw [← List.map_id found]
  refine List.map_congr_left fun p hp => ?_
  obtain ⟨hne, out, hout, heig⟩ := hf p hp
  refine Prod.ext (Complex.ext rfl ?_) rfl
  exact (C112_single_partial hr hN hG beta hc hv hg hne hout heig).symm

/-- a constant vertex, one momentum, two frequencies and the Green's function one: the constant gap has the eigenvalue
`-U / β` -/
example (U beta : ℝ) : sumValue beta 1 (fun _ (_ : L1) (_ _ _ _ : Fin 1) => (U : ℂ)) (fun _ _ _ _ => 1)
    (fun _ _ _ _ => 1) 0 0 0 0 = -U / beta * 1 := by
  have hwin : window 1 = {-1, 0} := by decide
  rw [sumValue, hwin, Finset.sum_pair (by decide)]
  simp [gammaF, pairF, gdgPoint]
  ring

/-- **C112.**  A vertex that is repulsive (a positive kernel) has no positive eigenvalue: there is no superconducting
instability without a sign change or attraction. -/
theorem C112_repulsive [Unique o] {ranks : ℕ} (hr : 0 < ranks) {N Ng NG : ℕ} (hN : N ≤ Ng)
    (hG : 4 * N ≤ 2 * NG - 1) {beta : ℝ} {lat : List (Lat n)} (hc : Complete lat) {gamma : ℤ → Lat n → T4 o}
    (hb : 0 < beta)
    (hv : ∀ f : GapIdx N n o → ℂ, 0 ≤ ∑ x, ∑ y, (starRingEnd ℂ) (f x)
      * gamma (x.1 - y.1) (x.2.1 - y.2.1) y.2.2.2 x.2.2.1 y.2.2.1 x.2.2.2 * f y) {g : ℤ → Lat n → o → o → ℂ} (hg : ∀ m q a b, g m (-q) a b = g m q a b)
    {lam : ℂ} {delta : ℤ → Lat n → o → o → ℂ} (hne : ∃ m ∈ window N, ∃ k a b, delta m k a b ≠ 0)
    {out : ℤ → Lat n → o → o → ℂ} (hout : eliashbergProduct ranks N Ng NG beta lat gamma g delta = .ok out)
    (heig : ∀ m ∈ window N, ∀ k a b, out m k a b = lam * delta m k a b) : lam ≤ 0 := by
  rw [eliashbergProduct_ok hr hN hG beta hc] at hout
  injection hout with hout
  subst hout
  obtain ⟨h1, h2, h3, h4⟩ := eigen_cases (fun m _ q => pairMatrix_unique hg m q) (gamma := gamma) (beta := beta)
    ⟨hne, heig⟩
  rcases eig_cases _ _ _ _ h1 h2 h3 h4 with h5 | ⟨r, hr, h5⟩
  · rw [h5]
  · have h6 : lam * r ≤ 0 := by
      have h8 : star (gapVec N (pairF g delta)) ⬝ᵥ (vertexMat beta N gamma *ᵥ gapVec N (pairF g delta))
          = ((-(1 / 2) / (beta * Fintype.card (Lat n)) : ℝ) : ℂ) * ∑ x, ∑ y,
            (starRingEnd ℂ) (gapVec N (pairF g delta) x)
              * gamma (x.1 - y.1) (x.2.1 - y.2.1) y.2.2.2 x.2.2.1 y.2.2.1 x.2.2.2 * gapVec N (pairF g delta) y := by
        rw [dotProduct, Finset.mul_sum]
        refine Finset.sum_congr rfl fun x _ => ?_
        rw [Matrix.mulVec, dotProduct, Finset.mul_sum, Finset.mul_sum]
        refine Finset.sum_congr rfl fun y _ => ?_
        simp only [vertexMat, Matrix.of_apply, Pi.star_apply, Complex.star_def]
        push_cast
        ring
      rw [h5, h8]
      refine mul_nonpos_of_nonpos_of_nonneg ?_ (hv _)
      have h9 : -(1 / 2) / (beta * Fintype.card (Lat n)) ≤ 0 := by
        refine div_nonpos_of_nonpos_of_nonneg (by norm_num) (by positivity)
      exact_mod_cast h9
    have h7 : lam = lam * r * ((r⁻¹ : ℝ) : ℂ) := by
      have : (r : ℂ) ≠ 0 := ofReal_ne_zero.2 hr.ne'
      rw [mul_assoc, ← ofReal_mul, mul_inv_cancel₀ hr.ne', ofReal_one, mul_one]
    rw [h7]
    exact mul_nonpos_of_nonpos_of_nonneg h6 (by exact_mod_cast (inv_pos.2 hr).le)

/-- reflection of all frequencies -/
def flip (N : ℕ) : GapIdx N n o ≃ GapIdx N n o where
  toFun x := (⟨-x.1 - 1, window_neg x.1.2⟩, x.2)
  invFun x := (⟨-x.1 - 1, window_neg x.1.2⟩, x.2)
  left_inv x := by
    refine Prod.ext (Subtype.ext ?_) rfl
    simp
  right_inv x := by
    refine Prod.ext (Subtype.ext ?_) rfl
    simp

/-- the pair propagator as a matrix -/
def pairBig (N : ℕ) (g : ℤ → Lat n → o → o → ℂ) : Matrix (GapIdx N n o) (GapIdx N n o) ℂ :=
  Matrix.of fun x y => if x.1 = y.1 ∧ x.2.1 = y.2.1 then pairMatrix g x.1 x.2.1 x.2.2 y.2.2 else 0

theorem pairBig_mulVec (N : ℕ) (g delta : ℤ → Lat n → o → o → ℂ) :
    pairBig N g *ᵥ gapVec N delta = gapVec N (pairF g delta) := by
  funext x
  rw [Matrix.mulVec, dotProduct, Fintype.sum_prod_type, Finset.sum_eq_single x.1 ?_ (by simp)]
  · rw [Fintype.sum_prod_type, Finset.sum_eq_single x.2.1 ?_ (by simp)]
    · simp only [pairBig, Matrix.of_apply, and_self, if_true]
      exact (pairF_mat g delta x.1 x.2.1 x.2.2).symm
    · intro q _ hq
      refine Finset.sum_eq_zero fun y _ => ?_
      simp only [pairBig, Matrix.of_apply]
      rw [if_neg fun h => hq h.2.symm, zero_mul]
  · intro m _ hm
    refine Finset.sum_eq_zero fun y _ => ?_
    simp only [pairBig, Matrix.of_apply]
    rw [if_neg fun h => hm h.1.symm, zero_mul]

/-- **C112.**  For any number of orbitals, a hermitian Green's function and a hermitian vertex even in frequency: with every
eigenvalue its complex conjugate is an eigenvalue. -/
theorem C112_pairs {ranks : ℕ} (hr : 0 < ranks) {N Ng NG : ℕ} (hN : N ≤ Ng) (hG : 4 * N ≤ 2 * NG - 1)
    (beta : ℝ) {lat : List (Lat n)} (hc : Complete lat) {gamma : ℤ → Lat n → T4 o} (hv : HermitianVertex gamma)
    (he : ∀ l q, gamma (-l) q = gamma l q) {g : ℤ → Lat n → o → o → ℂ} (hg : HermitianG g)
    {lam : ℂ} {delta : ℤ → Lat n → o → o → ℂ} (hne : ∃ m ∈ window N, ∃ k a b, delta m k a b ≠ 0)
    {out : ℤ → Lat n → o → o → ℂ} (hout : eliashbergProduct ranks N Ng NG beta lat gamma g delta = .ok out)
    (heig : ∀ m ∈ window N, ∀ k a b, out m k a b = lam * delta m k a b) :
    ∃ delta' out', (∃ m ∈ window N, ∃ k a b, delta' m k a b ≠ 0) ∧
      eliashbergProduct ranks N Ng NG beta lat gamma g delta' = .ok out' ∧
      ∀ m ∈ window N, ∀ k a b, out' m k a b = (starRingEnd ℂ) lam * delta' m k a b := by
  classical
  rw [eliashbergProduct_ok hr hN hG beta hc] at hout
  injection hout with hout
  subst hout
  obtain ⟨m, hm, k, a, b, h0⟩ := hne
  have hK := vertexMat_hermitian beta N hv
  obtain ⟨v, hv0, hveq⟩ := eig_pairs (vertexMat beta N gamma) (pairBig N g) (flip N) hK
    (fun x y => by
      simp only [vertexMat, Matrix.of_apply, flip, Equiv.coe_fn_mk]
      have : -(x.1 : ℤ) - 1 - (-(y.1 : ℤ) - 1) = -((x.1 : ℤ) - y.1) := by ring
      rw [this, he])
    (fun x y => by
      simp only [pairBig, Matrix.of_apply, flip, Equiv.coe_fn_mk]
      by_cases h : x.1 = y.1 ∧ x.2.1 = y.2.1
      · obtain ⟨h1, h2⟩ := h
        rw [if_pos ⟨h1.symm, h2.symm⟩, if_pos ⟨Subtype.ext (congrArg (fun z : {m // m ∈ window N} => -(z : ℤ) - 1) h1), h2⟩]
        simp only [pairMatrix, Matrix.of_apply, star_mul', Complex.star_def, Complex.conj_conj]
        rw [← hg.eq, ← hg.eq, h1, h2]
        congr 2
        ring
      · rw [if_neg fun h' => h ⟨h'.1.symm, h'.2.symm⟩, if_neg ?_, star_zero]
        intro h'
        refine h ⟨Subtype.ext ?_, h'.2⟩
        have := congrArg Subtype.val h'.1
        simp only at this
        omega) lam
    ⟨gapVec N delta, fun h => h0 (congrFun h (⟨m, hm⟩, k, a, b)), by
      rw [← Matrix.mulVec_mulVec, pairBig_mulVec]
      funext x
      rw [Matrix.mulVec, dotProduct, ← sumValue_mat, heig _ x.1.2]
      rfl⟩
  let delta' : ℤ → Lat n → o → o → ℂ := fun m k a b => if h : m ∈ window N then v (⟨m, h⟩, k, a, b) else 0
  have hd : gapVec N delta' = v := by
    funext x
    simp only [gapVec, delta']
    rw [dif_pos x.1.2]
  refine ⟨delta', _, ?_, eliashbergProduct_ok hr hN hG beta hc gamma g delta', fun m hm k a b => ?_⟩
  · obtain ⟨x, hx⟩ := Function.ne_iff.1 hv0
    refine ⟨x.1, x.1.2, x.2.1, x.2.2.1, x.2.2.2, ?_⟩
    rw [← hd] at hx
    exact hx
  · rw [← hd, ← Matrix.mulVec_mulVec, pairBig_mulVec] at hveq
    have h1 := congrFun hveq (⟨m, hm⟩, k, a, b)
    rw [Matrix.mulVec, dotProduct, ← sumValue_mat] at h1
    exact h1

/-! ## Complex eigenvalues -/

/-- two orbitals with energies `-2` and `1`, in units of the first Matsubara frequency -/
def twoLevels : ℤ → L1 → Fin 2 → Fin 2 → ℂ := fun m _ a b =>
  if a = b then 1 / (matsubara .fermion Real.pi m - (![-2, 1] a : ℝ)) else 0

/-- a vertex that mixes pairs within the first orbital and pairs of different orbitals -/
def mixing : ℤ → L1 → T4 (Fin 2) := fun _ _ c a d b =>
  if (a = 0 ∧ b = 0 ∧ c ≠ d) ∨ (c = 0 ∧ d = 0 ∧ a ≠ b) then 5 * Real.pi else 0

/-- a gap with both kinds of pairs -/
def mixedGap : ℤ → L1 → Fin 2 → Fin 2 → ℂ := fun _ _ a b =>
  if a = 0 ∧ b = 0 then 1 else if a = b then 0 else I

/-- **C112 (violated).**  Two orbitals below and above the Fermi energy, free electrons, a real vertex that is hermitian, even
in frequency and symmetric under exchange of the two electrons: `i` is an eigenvalue.  The real part that
`implicitly_restarted_arnoldi_method` returns is zero, which is not the eigenvalue of the mode returned with it. -/
theorem C112_complex_violated :
    HermitianVertex mixing ∧ (∀ l q, mixing (-l) q = mixing l q) ∧
      (∀ l q a b c d, mixing l q c d a b = mixing l q a b c d) ∧ HermitianG twoLevels ∧
      ∀ (ranks : ℕ) (_ : 0 < ranks) (lat : List L1) (_ : Complete lat), ∃ out,
        eliashbergProduct ranks 1 1 3 Real.pi lat mixing twoLevels mixedGap = .ok out ∧
        (∀ m ∈ window 1, ∀ k a b, out m k a b = I * mixedGap m k a b) ∧
        arnoldiResult [(I, mixedGap)] = [(0, mixedGap)] ∧
        out 0 0 0 0 ≠ ((0 : ℝ) : ℂ) * mixedGap 0 0 0 0 := by
  refine ⟨?_, fun _ _ => rfl, ?_, ?_, fun ranks hr lat hc => ?_⟩
  · intro l q a b c d
    simp only [mixing]
    have : (b = 0 ∧ d = 0 ∧ a ≠ c ∨ a = 0 ∧ c = 0 ∧ b ≠ d) ↔ (c = 0 ∧ a = 0 ∧ d ≠ b ∨ d = 0 ∧ b = 0 ∧ c ≠ a) := by
      revert a b c d
      decide
    by_cases h : (b = 0 ∧ d = 0 ∧ a ≠ c ∨ a = 0 ∧ c = 0 ∧ b ≠ d)
    · rw [if_pos h, if_pos (this.1 h), map_mul, Complex.conj_ofReal, map_ofNat]
    · rw [if_neg h, if_neg (fun h' => h (this.2 h')), map_zero]
  · intro l q a b c d
    simp only [mixing]
    have : (d = 0 ∧ b = 0 ∧ c ≠ a ∨ c = 0 ∧ a = 0 ∧ d ≠ b) ↔ (b = 0 ∧ d = 0 ∧ a ≠ c ∨ a = 0 ∧ c = 0 ∧ b ≠ d) := by
      revert a b c d
      decide
    by_cases h : (b = 0 ∧ d = 0 ∧ a ≠ c ∨ a = 0 ∧ c = 0 ∧ b ≠ d)
    · rw [if_pos h, if_pos (this.2 h)]
    · rw [if_neg h, if_neg (fun h' => h (this.1 h'))]
  · intro m k a b
    simp only [twoLevels]
    by_cases h : a = b
    · subst h
      rw [if_pos rfl, if_pos rfl, map_div₀, map_one, map_sub, Complex.conj_ofReal]
      congr 2
      simp only [matsubara, map_mul, map_div₀, Complex.conj_ofReal, Complex.conj_I]
      push_cast
      simp [Complex.conj_ofNat]
      ring
    · rw [if_neg h, if_neg (Ne.symm h), map_zero]
  · have hpi : (Real.pi : ℂ) ≠ 0 := ofReal_ne_zero.2 Real.pi_ne_zero
    have hw0 : matsubara .fermion Real.pi 0 = I := by
      simp only [matsubara]
      push_cast
      field_simp
      ring
    have hw1 : matsubara .fermion Real.pi (-1) = -I := by
      simp only [matsubara]
      push_cast
      field_simp
      ring
    have hval : ∀ m ∈ window 1, ∀ (k : L1) a b, sumValue Real.pi 1 mixing twoLevels mixedGap m k a b
        = I * mixedGap m k a b := by
      intro m hm k a b
      have hwin : window 1 = {-1, 0} := by decide
      have hinv : ∀ z w : ℂ, z * w = 1 → 1 / z = w := fun z w h => by
        rw [one_div]
        exact inv_eq_of_mul_eq_one_right h
      have t00 : ∀ q, twoLevels 0 q 0 0 = (2 - I) / 5 := by
        intro q
        simp only [twoLevels, if_true, hw0]
        refine hinv _ _ ?_
        apply Complex.ext <;> simp <;> norm_num
      have t11 : ∀ q, twoLevels 0 q 1 1 = (-1 - I) / 2 := by
        intro q
        simp only [twoLevels, if_true, hw0]
        refine hinv _ _ ?_
        apply Complex.ext <;> simp <;> norm_num
      have t00' : ∀ q, twoLevels (-1) q 0 0 = (2 + I) / 5 := by
        intro q
        simp only [twoLevels, if_true, hw1]
        refine hinv _ _ ?_
        apply Complex.ext <;> simp <;> norm_num
      have t11' : ∀ q, twoLevels (-1) q 1 1 = (-1 + I) / 2 := by
        intro q
        simp only [twoLevels, if_true, hw1]
        refine hinv _ _ ?_
        apply Complex.ext <;> simp <;> norm_num
      have t01 : ∀ m q, twoLevels m q 0 1 = 0 := fun m q => rfl
      have t10 : ∀ m q, twoLevels m q 1 0 = 0 := fun m q => rfl
      have d00 : ∀ m q, mixedGap m q 0 0 = 1 := fun m q => rfl
      have d01 : ∀ m q, mixedGap m q 0 1 = I := fun m q => rfl
      have d10 : ∀ m q, mixedGap m q 1 0 = I := fun m q => rfl
      have d11 : ∀ m q, mixedGap m q 1 1 = 0 := fun m q => rfl
      have h00 : ∀ q, pairF twoLevels mixedGap 0 q 0 0 = 1 / 5 := by
        intro q
        simp only [pairF, gdgPoint, Fin.sum_univ_two, t00, t11, t00', t11', t01, t10, d00, d01, d10, d11, map_div₀, map_add, map_sub,
          map_neg, map_one, map_zero, map_ofNat, Complex.conj_I]
        apply Complex.ext <;> simp <;> norm_num
      have h01 : ∀ q, pairF twoLevels mixedGap 0 q 0 1 = (-1 - 3 * I) / 10 * I := by
        intro q
        simp only [pairF, gdgPoint, Fin.sum_univ_two, t00, t11, t00', t11', t01, t10, d00, d01, d10, d11, map_div₀, map_add, map_sub,
          map_neg, map_one, map_zero, map_ofNat, Complex.conj_I]
        apply Complex.ext <;> simp <;> norm_num
      have h10 : ∀ q, pairF twoLevels mixedGap 0 q 1 0 = (-1 + 3 * I) / 10 * I := by
        intro q
        simp only [pairF, gdgPoint, Fin.sum_univ_two, t00, t11, t00', t11', t01, t10, d00, d01, d10, d11, map_div₀, map_add, map_sub,
          map_neg, map_one, map_zero, map_ofNat, Complex.conj_I]
        apply Complex.ext <;> simp <;> norm_num
      have h00' : ∀ q, pairF twoLevels mixedGap (-1) q 0 0 = 1 / 5 := by
        intro q
        simp only [pairF, gdgPoint, Fin.sum_univ_two, t00, t11, t00', t11', t01, t10, d00, d01, d10, d11, map_div₀, map_add, map_sub,
          map_neg, map_one, map_zero, map_ofNat, Complex.conj_I]
        apply Complex.ext <;> simp <;> norm_num
      have h01' : ∀ q, pairF twoLevels mixedGap (-1) q 0 1 = (-1 + 3 * I) / 10 * I := by
        intro q
        simp only [pairF, gdgPoint, Fin.sum_univ_two, t00, t11, t00', t11', t01, t10, d00, d01, d10, d11, map_div₀, map_add, map_sub,
          map_neg, map_one, map_zero, map_ofNat, Complex.conj_I]
        apply Complex.ext <;> simp <;> norm_num
      have h10' : ∀ q, pairF twoLevels mixedGap (-1) q 1 0 = (-1 - 3 * I) / 10 * I := by
        intro q
        simp only [pairF, gdgPoint, Fin.sum_univ_two, t00, t11, t00', t11', t01, t10, d00, d01, d10, d11, map_div₀, map_add, map_sub,
          map_neg, map_one, map_zero, map_ofNat, Complex.conj_I]
        apply Complex.ext <;> simp <;> norm_num
      rw [sumValue, hwin, Finset.sum_pair (by decide)]
      simp only [gammaF, Fin.sum_univ_two, h00, h01, h10, h00', h01', h10']
      fin_cases a <;> fin_cases b <;> simp [mixing, mixedGap] <;> field_simp <;> ring_nf
    refine ⟨_, eliashbergProduct_ok hr (by omega) (by omega) Real.pi hc _ _ _, hval, ?_, ?_⟩
    · simp [arnoldiResult]
    · rw [hval 0 (by decide)]
      simp [mixedGap]

end Verif.Eliashberg
