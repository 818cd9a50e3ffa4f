import Verif.Stoner.Algebra
import Verif.Basis.Operators
import Verif.Bubble.Routes

/-!
# C106: the static response is positive, and the RPA is stable exactly up to the Stoner criterion
-/

set_option linter.unusedSectionVars false

noncomputable section

namespace Verif.Stoner

open Matrix Verif.Rpa Verif.Parallel Verif.Fourier Verif.Bubble Verif.Lindhard
open scoped ComplexOrder Kronecker

variable {d : ℕ} {n : Fin d → ℕ} [∀ i, NeZero (n i)] {o : Type} [Fintype o] [DecidableEq o]
variable {P : Type*} [DecidableEq P]

/-! ## The bare response -/

theorem form_smul (x : ℂ) (t : Rpa.T4 o ℂ) : form (x • t) = x • form t := rfl

theorem form_sum {κ : Type*} (s : Finset κ) (t : κ → Rpa.T4 o ℂ) : form (∑ k ∈ s, t k) = ∑ k ∈ s, form (t k) := by
  ext p q
  simp only [form, Matrix.of_apply, Matrix.sum_apply, Finset.sum_apply]

/-- products of eigenvectors -/
def pairVec (p q : (o → ℝ) × Matrix o o ℂ) : Matrix (o × o) (o × o) ℂ := Matrix.of fun x y => p.2 x.1 y.1 * star (q.2 x.2 y.2)

theorem form_dbl (p q : (o → ℝ) × Matrix o o ℂ) (h : ℝ → ℝ → ℂ) :
    form (dbl p q h) = pairVec p q * diagonal (fun y => h (p.1 y.1) (q.1 y.2)) * (pairVec p q)ᴴ := by
  ext ⟨a, b⟩ ⟨d, c⟩
  rw [Matrix.mul_apply, Fintype.sum_prod_type]
  simp only [form, dbl, Matrix.of_apply, Matrix.mul_diagonal, conjTranspose_apply, pairVec, star_mul', star_star]
  refine Finset.sum_congr rfl fun i _ => Finset.sum_congr rfl fun j _ => ?_
  ring

theorem pairVec_unit {m m' : Matrix o o ℂ} {p q : (o → ℝ) × Matrix o o ℂ} (hp : Diag m p) (hq : Diag m' q) :
    pairVec p q * (pairVec p q)ᴴ = 1 := by
  ext ⟨a, b⟩ ⟨d, c⟩
  have h1 := congrFun (congrFun hp.2.1 a) d
  have h2 := congrFun (congrFun hq.2.1 c) b
  rw [Matrix.mul_apply] at h1 h2
  rw [Matrix.mul_apply, Fintype.sum_prod_type]
  simp only [pairVec, Matrix.of_apply, conjTranspose_apply, star_mul', star_star] at h1 h2 ⊢
  have e : ∀ i j, p.2 a i * star (q.2 b j) * (star (p.2 d i) * q.2 c j) = (p.2 a i * star (p.2 d i)) * (q.2 c j * star (q.2 b j)) :=
    fun i j => by ring
  simp only [e, ← Finset.mul_sum, ← Finset.sum_mul, h1, h2, Matrix.one_apply, Prod.mk.injEq]
  by_cases ha : a = d <;> by_cases hb : b = c <;> simp [ha, hb, eq_comm]

/-- the weight of a pair of levels is positive at zero frequency -/
theorem totalFactor_pos {tol beta : ℝ} (ht : 0 < tol) (hb : 0 < beta) (x y : ℝ) : 0 < totalFactor tol beta 0 x y := by
  unfold totalFactor
  dsimp only
  split_ifs with h
  · rw [Complex.zero_lt_real]
    positivity
  · rw [zero_add, ← Complex.ofReal_div, Complex.zero_lt_real]
    have hne : x ≠ y := by
      rintro rfl
      exact h ⟨by simpa using ht, by simpa using ht⟩
    rcases lt_or_gt_of_ne hne with hxy | hxy
    · refine div_pos ?_ (by linarith)
      have := C20_fermi_strictAnti (mul_lt_mul_of_pos_right hxy hb)
      linarith
    · refine div_pos_of_neg_of_neg ?_ (by linarith)
      have := C20_fermi_strictAnti (mul_lt_mul_of_pos_right hxy hb)
      linarith

/-- C106: the static Lindhard susceptibility is positive definite at every momentum, for every hermitian dispersion. -/
theorem C106_lindhard (ranks : ℕ) (hr : 0 < ranks) (eig : Eig o) (hs : EigSpec eig) {tol beta : ℝ} (ht : 0 < tol)
    (hb : 0 < beta) (mu : ℝ) (kmesh : List (Lat n)) (hnd : kmesh.Nodup) (hall : ∀ k, k ∈ kmesh) (e : Lat n → Matrix o o ℂ)
    (he : ∀ k, (e k).IsHermitian) (q : Lat n) : (form (lindhard ranks eig tol beta mu kmesh e 0 q)).PosDef := by
  rw [lindhard_eq ranks hr eig tol beta mu kmesh hnd hall e 0 q, form_smul, form_sum]
  refine PosDef.smul ?_ ?_
  · refine Matrix.posDef_sum ⟨0, Finset.mem_univ _⟩ fun k _ => ?_
    rw [form_dbl]
    have h1 := pairVec_unit (sys_diag hs mu he k) (sys_diag hs mu he (k + q))
    have hu : IsUnit (pairVec (sys eig mu e k) (sys eig mu e (k + q))) :=
      ⟨⟨_, _, h1, mul_eq_one_comm.1 h1⟩, rfl⟩
    refine (Matrix.IsUnit.posDef_star_right_conjugate_iff hu).2 (Matrix.posDef_diagonal_iff.2 fun y => ?_)
    exact totalFactor_pos ht hb _ _
  · rw [← Complex.ofReal_natCast, ← Complex.ofReal_inv, Complex.zero_lt_real]
    have : (0 : ℝ) < Fintype.card (Lat n) := by exact_mod_cast Fintype.card_pos
    positivity

/-- the bubble of two Green's functions as a product of matrices -/
theorem form_kronecker (X Y : Matrix o o ℂ) : form (fun a b c d => X d a * Y b c) = Xᵀ ⊗ₖ Y := by
  ext ⟨a, b⟩ ⟨d, c⟩
  simp [form, Matrix.kroneckerMap_apply]

theorem chi0tr_q (ranks L : ℕ) (hr : 0 < ranks) (rmesh : List (Lat n)) (hnd : rmesh.Nodup) (hall : ∀ r, r ∈ rmesh)
    (g : ℕ → Lat n → Matrix o o ℂ) (q : Lat n) (t : ℕ) :
    form (rToK (fun r => chi0tr ranks L rmesh (fun t r a b => kToR (fun k => g t k a b) r) r t) q)
      = (Fintype.card (Lat n) : ℂ)⁻¹ • ∑ k, (g t k)ᵀ ⊗ₖ (g (L - t) (k - q)) := by
  ext ⟨a, b⟩ ⟨d, c⟩
  have e : ∀ r, chi0tr ranks L rmesh (fun t r a b => kToR (fun k => g t k a b) r) r t
      = chi0tPoint L (fun t r a b => kToR (fun k => g t k a b) r) r t := by
    intro r
    rw [chi0tr, C02_distributedAssign ranks hr _ hnd, if_pos (hall r)]
  have h1 : rToK (fun r => chi0tr ranks L rmesh (fun t r a b => kToR (fun k => g t k a b) r) r t) q a b c d
      = rToK (fun r => kToR (fun k => g t k d a) r * kToR (fun k => g (L - t) k b c) (-r)) q := by
    simp only [e, rToK, fftw_one, Finset.sum_apply, Pi.smul_apply, chi0tPoint]
  simp only [form, Matrix.of_apply, h1, rToK_product, Matrix.smul_apply, Matrix.sum_apply, Matrix.kroneckerMap_apply,
    Matrix.transpose_apply, smul_eq_mul]
  rw [div_eq_inv_mul]

/-- C106: the imaginary time bubble is positive semidefinite at every momentum and every time, for every Green's function whose
negative is positive semidefinite at every momentum and time (as spectral positivity demands, interacting or not). -/
theorem C106_time (ranks L : ℕ) (hr : 0 < ranks) (rmesh : List (Lat n)) (hnd : rmesh.Nodup) (hall : ∀ r, r ∈ rmesh)
    (g : ℕ → Lat n → Matrix o o ℂ) (hg : ∀ t k, t ≤ L → (-(g t k)).PosSemidef) (q : Lat n) (t : ℕ) (hL : t ≤ L) :
    (form (rToK (fun r => chi0tr ranks L rmesh (fun t r a b => kToR (fun k => g t k a b) r) r t) q)).PosSemidef := by
  rw [chi0tr_q ranks L hr rmesh hnd hall g q t]
  refine (Matrix.posSemidef_sum _ fun k _ => ?_).smul ?_
  · have h1 := (hg t k hL).transpose.kronecker (hg (L - t) (k - q) (Nat.sub_le _ _))
    have e : (-(g t k))ᵀ ⊗ₖ (-(g (L - t) (k - q))) = (g t k)ᵀ ⊗ₖ g (L - t) (k - q) := by
      ext x y
      simp [Matrix.kroneckerMap_apply]
    rwa [e] at h1
  · rw [← Complex.ofReal_natCast, ← Complex.ofReal_inv, Complex.zero_le_real]
    positivity

theorem rToK_trapz (beta : ℂ) (L : ℕ) (f : Lat n → ℕ → Bubble.T4 o) (q : Lat n) :
    rToK (fun r => trapz beta L (f r)) q = trapz beta L fun t => rToK (fun r => f r t) q := by
  simp only [rToK, fftw_one, trapz, Finset.smul_sum, smul_sub, Finset.sum_sub_distrib]
  congr 1
  · congr 1
    · rw [Finset.sum_comm]
      refine Finset.sum_congr rfl fun t _ => Finset.sum_congr rfl fun r _ => ?_
      rw [smul_comm]
    · refine Finset.sum_congr rfl fun r _ => ?_
      rw [smul_comm, smul_comm (ker r q)]
  · refine Finset.sum_congr rfl fun r _ => ?_
    rw [smul_comm, smul_comm (ker r q)]

/-- C106: the static bubble of `chi0_w0r_from_grt_PH` is positive semidefinite at every momentum, on every time mesh. -/
theorem C106_static (ranks L : ℕ) (hr : 0 < ranks) (hL : 0 < L) {beta : ℝ} (hb : 0 < beta) (rmesh : List (Lat n))
    (hnd : rmesh.Nodup) (hall : ∀ r, r ∈ rmesh) (g : ℕ → Lat n → Matrix o o ℂ)
    (hg : ∀ t k, t ≤ L → (-(g t k)).PosSemidef) (q : Lat n) :
    (form (rToK (chi0W0r ranks (beta : ℂ) L rmesh fun t r a b => kToR (fun k => g t k a b) r) q)).PosSemidef := by
  have e : chi0W0r ranks (beta : ℂ) L rmesh (fun t r a b => kToR (fun k => g t k a b) r)
      = fun r => trapz (beta : ℂ) L (chi0tr ranks L rmesh (fun t r a b => kToR (fun k => g t k a b) r) r) := by
    funext r
    rw [chi0W0r, chi0tr, C02_distributedAssign ranks hr _ hnd, if_pos (hall r), C02_distributedAssign ranks hr _ hnd,
      if_pos (hall r)]
  rw [e, rToK_trapz]
  set c := fun t => rToK (fun r => chi0tr ranks L rmesh (fun t r a b => kToR (fun k => g t k a b) r) r t) q with hc
  have hp : ∀ t, t ≤ L → (form (c t)).PosSemidef := fun t ht => C106_time ranks L hr rmesh hnd hall g hg q t ht
  have e2 : trapz (beta : ℂ) L c
      = (((beta / L : ℝ) : ℂ)) • ((∑ t ∈ Finset.Ico 1 L, c t) + ((1 / 2 : ℝ) : ℂ) • c 0 + ((1 / 2 : ℝ) : ℂ) • c L) := by
    obtain ⟨M, rfl⟩ : ∃ M, L = M + 1 := ⟨L - 1, by omega⟩
    rw [trapz, Finset.sum_range_succ, Finset.sum_range_eq_add_Ico _ (Nat.succ_pos M)]
    push_cast
    module
  rw [e2, form_smul]
  refine PosSemidef.smul ?_ (by rw [Complex.zero_le_real]; positivity)
  have e3 : form ((∑ t ∈ Finset.Ico 1 L, c t) + ((1 / 2 : ℝ) : ℂ) • c 0 + ((1 / 2 : ℝ) : ℂ) • c L)
      = (∑ t ∈ Finset.Ico 1 L, form (c t)) + ((1 / 2 : ℝ) : ℂ) • form (c 0) + ((1 / 2 : ℝ) : ℂ) • form (c L) := by
    rw [← form_sum]
    rfl
  rw [e3]
  have hh : (0 : ℂ) ≤ ((1 / 2 : ℝ) : ℂ) := by rw [Complex.zero_le_real]; positivity
  refine ((Matrix.posSemidef_sum _ fun t ht => hp t ?_).add ((hp 0 (Nat.zero_le _)).smul hh)).add ((hp L le_rfl).smul hh)
  exact (Finset.mem_Ico.1 ht).2.le

/-! ## Random phase approximation -/

/-- C106: the interaction tensor of a hermitian Hamiltonian is a hermitian coupling of pairs. -/
theorem C106_interaction {ι : Type} [LinearOrder ι] (fs : List ι) (hnd : fs.Nodup) (x : Operators.Op ι)
    (hx : Operators.Canonical x) (hq : ∀ m ∈ x.support, Operators.IsQuartic fs m) (hh : Operators.dagger x = x)
    (ts : List (Operators.Mono ι × ℂ)) (hts : Operators.Enumerates ts x) :
    ∃ Γ, Operators.getRpaTensor fs ts = .ok Γ ∧ (coupling Γ).IsHermitian := by
  classical
  have hopq : Operators.operatorFromQuarticTensor fs (fun i j k l => x (Operators.K4 fs i j k l)) = x := by
    rw [Operators.opq_coefficients fs hnd x hx, Finsupp.filter_eq_self_iff]
    exact fun m hm => hq m (Finsupp.mem_support_iff.mpr hm)
  set D : Operators.T4 fs.length := fun i j k l => x (Operators.K4 fs i j k l)
  have hopq' : Operators.operatorFromQuarticTensor fs (fun i j k l => starRingEnd ℂ (D l k j i)) = x := by
    rw [← Operators.dagger_opq, hopq, hh]
  have h1 := Basis.getRpaTensor_opq fs hnd D ts (hopq.symm ▸ hts)
  have h2 := Basis.getRpaTensor_opq fs hnd _ ts (hopq'.symm ▸ hts)
  refine ⟨_, h1, ?_⟩
  rw [h1] at h2
  have h3 := Except.ok.inj h2
  rw [coupling_isHermitian]
  intro a b c d
  have h4 := congrFun (congrFun (congrFun (congrFun h3 d) c) b) a
  rw [h4, Operators.permSym_eq, Operators.permSym_eq]
  simp only [Complex.star_def, map_mul, map_sub, map_add, map_div₀, map_one, map_ofNat]
  ring

/-- C106: with a static bare response that is positive semidefinite and a hermitian interaction all eigenvalues of the product
`chi0 U` are real; if they are below one the solver returns a positive semidefinite response. If the bare response is positive
definite the returned response is positive definite exactly then. -/
theorem C106_stoner (ranks : ℕ) (hr : 0 < ranks) (mesh : List P) (hm : mesh.Nodup) (chi0 : P → Rpa.T4 o ℂ) (U : Rpa.T4 o ℂ)
    (p : P) (hp : p ∈ mesh) (hA : (form (chi0 p)).PosSemidef) (hU : (coupling U).IsHermitian) :
    (∀ z ∈ (pairMat (chi0 p) * pairMat U).charpoly.roots, z.im = 0) ∧
    ((∀ z ∈ (pairMat (chi0 p) * pairMat U).charpoly.roots, z.re < 1) →
      IsUnit (1 - pairMat (chi0 p) * pairMat U).det ∧ (form (solveRpaPH ranks mesh chi0 U p)).PosSemidef) ∧
    ((form (chi0 p)).PosDef → ((∀ z ∈ (pairMat (chi0 p) * pairMat U).charpoly.roots, z.re < 1) ↔
      (form (solveRpaPH ranks mesh chi0 U p)).PosDef)) := by
  rw [solveRpaPH, C02_distributedAssign ranks hr _ hm, if_pos hp, form_rpaPoint, form_mul_coupling]
  exact ⟨roots_real hA hU, stable hA hU, fun h => stable_iff h hU⟩

/-- C106: scaling up the interaction from zero, either the response stays finite and positive for ever, or there is a critical
strength where the matrix becomes singular, below which the response is finite and positive and beyond which it never is
positive definite again. -/
theorem C106_critical (ranks : ℕ) (hr : 0 < ranks) (mesh : List P) (hm : mesh.Nodup) (chi0 : P → Rpa.T4 o ℂ) (U : Rpa.T4 o ℂ)
    (p : P) (hp : p ∈ mesh) (hA : (form (chi0 p)).PosSemidef) (hU : (coupling U).IsHermitian) :
    (∀ x : ℝ, 0 ≤ x → IsUnit (1 - pairMat (chi0 p) * pairMat ((x : ℂ) • U)).det ∧
      (form (solveRpaPH ranks mesh chi0 ((x : ℂ) • U) p)).PosSemidef) ∨
    ∃ xc : ℝ, 0 < xc ∧ (1 - pairMat (chi0 p) * pairMat ((xc : ℂ) • U)).det = 0 ∧
      (∀ x : ℝ, 0 ≤ x → x < xc → IsUnit (1 - pairMat (chi0 p) * pairMat ((x : ℂ) • U)).det ∧
        (form (solveRpaPH ranks mesh chi0 ((x : ℂ) • U) p)).PosSemidef) ∧
      ((form (chi0 p)).PosDef → ∀ x : ℝ, xc < x → ¬ (form (solveRpaPH ranks mesh chi0 ((x : ℂ) • U) p)).PosDef) := by
  have e : ∀ x : ℂ, coupling (x • U) = x • coupling U := fun x => rfl
  have e2 : ∀ x : ℝ, form (solveRpaPH ranks mesh chi0 ((x : ℂ) • U) p)
      = (1 - form (chi0 p) * ((x : ℂ) • coupling U))⁻¹ * form (chi0 p) := by
    intro x
    rw [solveRpaPH, C02_distributedAssign ranks hr _ hm, if_pos hp, form_rpaPoint, e]
  simp only [form_mul_coupling, e, e2]
  exact critical hA hU

/-- C106: below the instability a larger coupling gives a larger response; in particular the response exceeds the bare one if the
coupling is positive semidefinite. -/
theorem C106_monotone (ranks : ℕ) (hr : 0 < ranks) (mesh : List P) (hm : mesh.Nodup) (chi0 : P → Rpa.T4 o ℂ) (U U' : Rpa.T4 o ℂ)
    (p : P) (hp : p ∈ mesh) (hA : (form (chi0 p)).PosSemidef) (hU : (coupling U).IsHermitian)
    (hle : (coupling U' - coupling U).PosSemidef)
    (h : ∀ z ∈ (pairMat (chi0 p) * pairMat U).charpoly.roots, z.re < 1)
    (h' : ∀ z ∈ (pairMat (chi0 p) * pairMat U').charpoly.roots, z.re < 1) :
    (form (solveRpaPH ranks mesh chi0 U' p) - form (solveRpaPH ranks mesh chi0 U p)).PosSemidef := by
  have hU' : (coupling U').IsHermitian := by
    have := hle.isHermitian.add hU
    rwa [sub_add_cancel] at this
  rw [form_mul_coupling] at h h'
  rw [solveRpaPH, C02_distributedAssign ranks hr _ hm, if_pos hp, solveRpaPH, C02_distributedAssign ranks hr _ hm, if_pos hp,
    form_rpaPoint, form_rpaPoint]
  exact response_mono hA hU hU' h h' hle

end Verif.Stoner
