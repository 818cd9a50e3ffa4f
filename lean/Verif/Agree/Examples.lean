import Verif.Agree.Window
import Verif.Agree.Response
import Verif.Agree.Gw

/-!
# C130: concrete cases that meet the hypotheses
-/

noncomputable section

set_option linter.unusedSectionVars false

namespace Verif.Agree

open Verif.Parallel Verif.Fourier Verif.HfResponse Verif.Gw Filter Topology Matrix
open Verif.Rpa (pairMat matTensor rpaPoint swapPairs solveRpaPH)

/-- the RPA equation is regular for every weak enough interaction -/
theorem regular_weak {o : Type} [Fintype o] [DecidableEq o] (X U : Rpa.T4 o ℂ) :
    ∀ᶠ u : ℝ in 𝓝 0, IsUnit (1 - pairMat X * pairMat fun a b c d => (u : ℂ) * U a b c d).det := by
  have hc : Continuous fun u : ℝ => (1 - pairMat X * pairMat fun a b c d => (u : ℂ) * U a b c d).det := by
    refine Continuous.matrix_det (continuous_const.sub ?_)
    refine Continuous.matrix_mul continuous_const ?_
    refine continuous_pi fun A => continuous_pi fun B => ?_
    exact Complex.continuous_ofReal.mul continuous_const
  have h0 : (1 - pairMat X * pairMat fun a b c d => ((0 : ℝ) : ℂ) * U a b c d).det ≠ 0 := by
    have hz : (pairMat fun a b c d => ((0 : ℝ) : ℂ) * U a b c d) = 0 := by
      ext A B
      simp [pairMat]
    rw [hz, mul_zero, sub_zero, det_one]
    exact one_ne_zero
  exact (hc.continuousAt.eventually (isOpen_ne.mem_nhds h0)).mono fun u hu => isUnit_iff_ne_zero.2 hu

theorem exists_weak {o : Type} [Fintype o] [DecidableEq o] (X U : Rpa.T4 o ℂ) :
    ∃ u : ℝ, u ≠ 0 ∧ IsUnit (1 - pairMat X * pairMat fun a b c d => (u : ℂ) * U a b c d).det := by
  have h1 : ∀ᶠ u : ℝ in 𝓝[≠] 0, u ≠ 0 := self_mem_nhdsWithin
  exact (h1.and (nhdsWithin_le_nhds (regular_weak X U))).exists

/-! ## Response -/

/-- two orbitals with a real hopping on four sites, at any interaction strength -/
def hopping (u : ℝ) : Solver 2 (Lat fun _ : Fin 1 => 4) :=
  { beta := 2, mu := 1 / 3, ekMF := fun _ => !![0, 1; 1, 0], U := fun a b c d => (u : ℂ) * hubTensor a b c d }

/-- the hypotheses of `C130_response_partial` hold together, with a Hubbard interaction that is not zero -/
example : ∃ (u tol : ℝ) (eig : Lindhard.Eig (Fin 2)), u ≠ 0 ∧ 0 < tol ∧ Lindhard.EigSpec eig ∧
    (∀ k, ((hopping u).ekMF k).IsHermitian) ∧ (∀ k, ((hopping u).ekMF k)ᵀ = (hopping u).ekMF k) ∧
    Separated eig tol (hopping u).mu (hopping u).ekMF ∧
    IsUnit (1 - pairMat (Lindhard.lindhard 3 eig tol (hopping u).beta (hopping u).mu Finset.univ.toList (hopping u).ekMF
      0 0) * pairMat (hopping u).U).det := by
  obtain ⟨eig, he⟩ := Lindhard.exists_eigSpec (o := Fin 2)
  obtain ⟨tol, ht, hsep⟩ := exists_separated eig (hopping 0).mu (hopping 0).ekMF
  obtain ⟨u, hu, hd⟩ := exists_weak (Lindhard.lindhard 3 eig tol (hopping 0).beta (hopping 0).mu Finset.univ.toList
    (hopping 0).ekMF 0 0) hubTensor
  refine ⟨u, tol, eig, hu, ht, he, fun k => ?_, fun k => ?_, hsep, hd⟩
  · ext i j; fin_cases i <;> fin_cases j <;> simp [hopping, Matrix.conjTranspose_apply]
  · ext i j; fin_cases i <;> fin_cases j <;> simp [hopping]

/-! ## Bethe-Salpeter equation -/

/-- the hypotheses of `C130_bse_rpa_partial` hold together for a bubble that depends on all its arguments -/
example : ∃ (chi0 : Fin 2 → Fin 3 → Fin 4 → Rpa.T4 (Fin 2) ℂ) (U : Rpa.T4 (Fin 2) ℂ),
    (∀ a b c d, U b a d c = U a b c d) ∧ U ≠ (fun _ _ _ _ => 0) ∧
    IsUnit (1 - pairMat (Bse.chi0qSumNu 2 (3 : ℂ) [((0 : Fin 2), (1 : Fin 4))] chi0 (0, 1)) * pairMat U).det := by
  let chi0 : Fin 2 → Fin 3 → Fin 4 → Rpa.T4 (Fin 2) ℂ := fun w nu k a b c d =>
    ((w.val + 2 * nu.val + k.val + a.val + 3 * b.val + c.val * d.val : ℕ) : ℂ)
  obtain ⟨u, hu, hd⟩ := exists_weak (Bse.chi0qSumNu 2 (3 : ℂ) [((0 : Fin 2), (1 : Fin 4))] chi0 (0, 1)) hubTensor
  refine ⟨chi0, fun a b c d => (u : ℂ) * hubTensor a b c d, fun a b c d => ?_, fun h => ?_, hd⟩
  · fin_cases a <;> fin_cases b <;> fin_cases c <;> fin_cases d <;> simp [hubTensor]
  · have h1 := congrFun (congrFun (congrFun (congrFun h 0) 0) 1) 1
    simp [hubTensor, hu] at h1

/-! ## GW -/

/-- density of a diagonal Green's function at the lowest frequency -/
def diagPieces (beta : ℝ) : Pieces where
  gToTau x t := x t
  wToTau x t := x t
  toFreq x w := x w.toNat
  tail0 x := x 0
  dens x := if x 0 = 0 then 0 else (HartreeFock.fermi beta (-((x 0)⁻¹).re) : ℂ)
  ntau nw := 6 * nw + 1

/-- a half filled Hubbard atom with two spin states; `V` is the interaction tensor -/
def spinAtom (beta : ℝ) (V : Operators.T4 2) : SolverParams (fun _ : Fin 1 => 1) (Fin 2) where
  ranks := 1
  lat := [0]
  freqs := [0]
  bfreqs := [0]
  nw := 2
  beta := beta
  L := 13
  val := fun m => matsubara .fermion beta m
  pieces := diagPieces beta
  boseFreq := fun x w => x w.toNat
  e := fun _ => diagonal fun _ => ((-1 / 2 : ℝ) : ℂ)
  V := fun _ => V
  nFix := 0
  bracket := (0, 0)
  brentq := noBrent

theorem spinAtom_good (beta : ℝ) (V : Operators.T4 2) : GoodMeshes (spinAtom beta V) where
  ranks := Nat.one_pos
  lat := ⟨List.nodup_singleton _, fun k => by
    rw [show k = 0 from Subsingleton.elim _ _]; exact List.mem_singleton.2 rfl⟩
  freqs := List.nodup_singleton _
  bfreqs := List.nodup_singleton _

theorem spinAtom_exact (beta : ℝ) (hb : 0 < beta) (V : Operators.T4 2) (mu : ℝ) (v : Fin 2 → ℝ) :
    ExactAt (spinAtom beta V) mu (diagonal fun i => (v i : ℂ)) := by
  intro k i j
  have hne : ∀ i, matsubara .fermion beta 0 + (mu : ℂ) - ((-1 / 2 : ℝ) : ℂ) - (v i : ℂ) ≠ 0 := by
    intro i h
    have h1 := congrArg Complex.im h
    simp [matsubara] at h1
    have := Real.pi_pos
    rcases h1 with h1 | h1 <;> linarith
  have h := dispatch_some (spinAtom_good beta V) mu (fun _ _ => diagonal fun i => (v i : ℂ)) 0 (List.mem_singleton.2 rfl) k
  have hd : ((spinAtom beta V).val 0 + 0 + (mu : ℂ)) • (1 : Matrix (Fin 2) (Fin 2) ℂ) - (spinAtom beta V).e k
      - Matrix.of (diagonal fun i => (v i : ℂ))
      = diagonal fun i => matsubara .fermion beta 0 + (mu : ℂ) - ((-1 / 2 : ℝ) : ℂ) - (v i : ℂ) := by
    ext a b
    by_cases hab : a = b
    · subst hab; simp [spinAtom]; exact diagonal_apply_eq _ _
    · simp [spinAtom, hab]; exact diagonal_apply_ne _ hab
  have hi : (diagonal fun i => matsubara .fermion beta 0 + (mu : ℂ) - ((-1 / 2 : ℝ) : ℂ) - (v i : ℂ))⁻¹
      = diagonal fun i => (matsubara .fermion beta 0 + (mu : ℂ) - ((-1 / 2 : ℝ) : ℂ) - (v i : ℂ))⁻¹ := by
    refine Matrix.inv_eq_right_inv ?_
    rw [diagonal_mul_diagonal]
    rw [← diagonal_one]
    congr 1
    funext i
    exact mul_inv_cancel₀ (hne i)
  rw [hd, hi] at h
  have h0 := congrFun (congrFun h i) j
  rw [Matrix.of_apply] at h0
  have hf : (spinAtom beta V).e k + (diagonal fun i => (v i : ℂ)) - (mu : ℂ) • 1
      = diagonal fun i => ((-1 / 2 + v i - mu : ℝ) : ℂ) := by
    ext a b
    by_cases hab : a = b
    · subst hab; simp [spinAtom]
    · simp [spinAtom, hab]
  rw [hf]
  change (if (spinAtom beta V).dispatch mu (some fun _ _ => diagonal fun i => (v i : ℂ)) 0 k i j = 0 then (0 : ℂ) else
    (HartreeFock.fermi beta (-(((spinAtom beta V).dispatch mu (some fun _ _ => diagonal fun i => (v i : ℂ)) 0 k i j)⁻¹).re) : ℂ))
    = fermiMatrix beta _ i j
  rw [h0, fermiMatrix_diagonal]
  by_cases hij : i = j
  · subst hij
    rw [diagonal_apply_eq, diagonal_apply_eq, if_neg (inv_ne_zero (hne i)), inv_inv]
    congr 2
    simp [matsubara_re]
    ring
  · rw [diagonal_apply_ne _ hij, diagonal_apply_ne _ hij, if_pos rfl]

/-- the hypotheses of `C130_gw_converse` hold together: the paramagnetic solution of the half filled Hubbard atom, which is
then a fixed point of both solvers -/
example (beta : ℝ) (hb : 0 < beta) : ∃ V Γ : Operators.T4 2, getGwTensor [(0 : Fin 2), 1] hubbardTerms = .ok V ∧
    Operators.getRpaTensor [(0 : Fin 2), 1] hubbardTerms = .ok Γ ∧
    SelfConsistent (spinAtom beta V).beta 0 (spinAtom beta V).e Γ 0 (diagonal fun _ => ((1 / 2 : ℝ) : ℂ)) ∧
    ExactAt (spinAtom beta V) 0 (HartreeFock.meanField Γ (diagonal fun _ => ((1 / 2 : ℝ) : ℂ))) := by
  obtain ⟨V, hV, -⟩ := hubbard_gwTensor
  have hΓ : ∃ Γ : Operators.T4 2, Operators.getRpaTensor [(0 : Fin 2), 1] hubbardTerms = .ok Γ := ⟨_, rfl⟩
  obtain ⟨Γ, hΓ⟩ := hΓ
  have hM : HartreeFock.meanField Γ (diagonal fun _ => ((1 / 2 : ℝ) : ℂ)) = diagonal fun _ => ((1 / 2 : ℝ) : ℂ) := by
    have h := C88_mean_field [(0 : Fin 2), 1] hubbardTerms V Γ hV hΓ (diagonal fun _ => ((1 / 2 : ℝ) : ℂ))
    rw [diagonal_transpose] at h
    refine h.symm.trans ?_
    obtain ⟨V', hV', hval⟩ := hubbard_gwTensor
    obtain rfl : V' = V := Except.ok.inj (hV'.symm.trans hV)
    ext a b
    simp only [staticField]
    change ∑ c : Fin 2, ∑ d : Fin 2, V' a b c d * _ - ∑ c : Fin 2, ∑ d : Fin 2, V' a c d b * _ = _
    simp only [hval, Fin.sum_univ_two]
    fin_cases a <;> fin_cases b <;> simp
  refine ⟨V, Γ, hV, hΓ, ?_, ?_⟩
  · unfold SelfConsistent
    rw [hM]
    have hz : ∀ k, (spinAtom beta V).e k + (diagonal fun _ => ((1 / 2 : ℝ) : ℂ)) - ((0 : ℝ) : ℂ) • 1 + 0
        = diagonal fun _ : Fin 2 => ((0 : ℝ) : ℂ) := by
      intro k
      ext a b
      by_cases hab : a = b
      · subst hab; simp [spinAtom]; norm_num
      · simp [spinAtom, hab]
    simp only [hz, fermiMatrix_diagonal]
    rw [Finset.sum_const, Finset.card_univ, card_L1]
    simp [HartreeFock.fermi]
    norm_num
  · rw [hM]
    exact spinAtom_exact beta hb V 0 fun _ => 1 / 2

end Verif.Agree
