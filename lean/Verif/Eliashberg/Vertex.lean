import Verif.Eliashberg.Props
import Verif.Rpa.Props
import Verif.Util.Props

/-!
# C61, C72, C80: construction and preparation of the pairing vertex
-/

noncomputable section

namespace Verif.Eliashberg

open Complex Verif.Parallel Verif.Fourier Verif.Bubble Verif.Gw

variable {d : ℕ} {n : Fin d → ℕ} [∀ i, NeZero (n i)] {o : Type*} [Fintype o] [DecidableEq o]
variable {P : Type*} [DecidableEq P]

set_option linter.unusedSectionVars false

/-! ## C61 -/

/-- C61: the ladder vertex is the contraction `U χ U` over neighbouring index pairs, at every mesh point and for every
number of ranks. -/
theorem C61_phi {ranks : ℕ} (hr : 0 < ranks) (mesh : List P) (hm : mesh.Nodup) (chi : P → T4 o) (U : T4 o) (p : P)
    (hp : p ∈ mesh) (a b c d : o) :
    constructPhi ranks mesh chi U p a b c d
      = ∑ e, ∑ f, ∑ g, ∑ h, U a b e f * chi p e f g h * U g h c d := by
  rw [constructPhi, C02_distributedAssign ranks hr _ hm, if_pos hp, phiPoint, Rpa.matTensor, Matrix.mul_assoc]
  simp only [Matrix.mul_apply, Fintype.sum_prod_type, Finset.mul_sum, Rpa.pairMat, mul_assoc]

/-- the grouping stated in the comments ("permuting the last two indices") would give `U χ' U` with
`χ'_{abcd} = χ_{badc}` -/
def documentedPhi (chi U : T4 o) : T4 o := fun a b c d =>
  ∑ e, ∑ f, ∑ g, ∑ h, U a b e f * chi f e h g * U g h c d

/-- C61 (ladder vertex with the permuted grouping): agrees for susceptibilities with `χ_{badc} = χ_{abcd}`. -/
theorem C61_phi_partial {ranks : ℕ} (hr : 0 < ranks) (mesh : List P) (hm : mesh.Nodup) (chi : P → T4 o) (U : T4 o)
    (p : P) (hp : p ∈ mesh) (hchi : ∀ a b c d, chi p b a d c = chi p a b c d) :
    constructPhi ranks mesh chi U p = documentedPhi (chi p) U := by
  funext a b c d
  rw [C61_phi hr mesh hm chi U p hp, documentedPhi]
  simp only [hchi]

/-- the documented triplet vertex -/
def docTriplet (Ud Um phid phim : T4 o) : T4 o := fun a b c d =>
  -(1 / 2) * Ud a b c d + (1 / 2) * Um a b c d
    + (starRingEnd ℂ) (-phim c b a d - phid c b a d)

/-- the documented singlet vertex -/
def docSinglet (Ud Um phid phim : T4 o) : T4 o := fun a b c d =>
  (1 / 2) * Ud a b c d + (3 / 2) * Um a b c d
    + (starRingEnd ℂ) (3 * phim c b a d - phid c b a d)

/-- C61: the triplet vertex is the documented combination. -/
theorem C61_triplet (Ud Um phid phim : T4 o) : gammaTriplet Ud Um phid phim = docTriplet Ud Um phid phim := by
  funext a b c d
  simp only [gammaTriplet, docTriplet, map_sub, map_neg]
  ring

/-- C61 (singlet vertex): the code differs from the documentation by twice the density ladder. -/
theorem C61_singlet_partial (Ud Um phid phim : T4 o) (a b c d : o) :
    gammaSinglet Ud Um phid phim a b c d
      = docSinglet Ud Um phid phim a b c d + 2 * (starRingEnd ℂ) (phid c b a d) := by
  simp only [gammaSinglet, docSinglet, map_sub, map_mul, map_ofNat]
  ring

/-- C61: the singlet vertex agrees with the documentation exactly if the density ladder vanishes. -/
theorem C61_singlet_iff (Ud Um phid phim : T4 o) :
    gammaSinglet Ud Um phid phim = docSinglet Ud Um phid phim ↔ ∀ a b c d, phid a b c d = 0 := by
  constructor
  · intro h a b c d
    have := congrFun (congrFun (congrFun (congrFun h c) b) a) d
    rw [C61_singlet_partial] at this
    simpa using this
  · intro h
    funext a b c d
    rw [C61_singlet_partial, h]
    simp

/-- C61 is violated for the singlet vertex. -/
theorem C61_singlet_violated : ∃ Ud Um phid phim : T4 (Fin 1),
    gammaSinglet Ud Um phid phim ≠ docSinglet Ud Um phid phim := by
  refine ⟨0, 0, fun _ _ _ _ => 1, 0, fun h => ?_⟩
  have := (C61_singlet_iff _ _ _ _).1 h 0 0 0 0
  exact one_ne_zero this

/-! ## C72 -/

/-- C72, as coded: the density susceptibility is computed with the magnetic (enhancing) form of the RPA equation and the
density interaction, the magnetic susceptibility with the charge (suppressing) form and the magnetic interaction. -/
theorem C72_value {m : ℕ} {ranks : ℕ} (hr : 0 < ranks) (mesh : List P) (hm : mesh.Nodup) (U Up J Jp : ℂ)
    (chi0 : P → T4 (Fin m)) (p : P) (hp : p ∈ mesh) (ord : List ℕ → List ℕ) (hord : ∀ l, (ord l).Perm l) :
    (createIngredients ranks mesh U Up J Jp chi0).chiD p
      = Rpa.chiRpaSpin ord (chi0 p) (RpaTensor.kanamoriCharge m U Up J Jp) ∧
    (createIngredients ranks mesh U Up J Jp chi0).chiM p
      = Rpa.chiRpaCharge ord (chi0 p) (RpaTensor.kanamoriSpin m U Up J Jp) := by
  constructor
  · rw [Rpa.chiRpaSpin_eq m ord hord]
    exact Rpa.solveRpaPH_apply ranks hr mesh hm chi0 _ p hp
  · rw [Rpa.chiRpaCharge_eq, Rpa.chiRpaSpin_eq m ord hord]
    exact Rpa.solveRpaPH_apply ranks hr mesh hm chi0 _ p hp

/-- C72: for one orbital the two susceptibilities are exchanged. -/
theorem C72_single_orbital {ranks : ℕ} (hr : 0 < ranks) (mesh : List P) (hm : mesh.Nodup) (U Up J Jp : ℂ)
    (chi0 : P → T4 (Fin 1)) (p : P) (hp : p ∈ mesh) (ord : List ℕ → List ℕ) (hord : ∀ l, (ord l).Perm l) :
    (createIngredients ranks mesh U Up J Jp chi0).chiD p
      = Rpa.chiRpaSpin ord (chi0 p) (RpaTensor.kanamoriSpin 1 U Up J Jp) ∧
    (createIngredients ranks mesh U Up J Jp chi0).chiM p
      = Rpa.chiRpaCharge ord (chi0 p) (RpaTensor.kanamoriCharge 1 U Up J Jp) := by
  have e : RpaTensor.kanamoriCharge 1 U Up J Jp = RpaTensor.kanamoriSpin 1 U Up J Jp := by
    funext a b c d
    have ha : a = 0 := Subsingleton.elim _ _
    have hb : b = 0 := Subsingleton.elim _ _
    have hc : c = 0 := Subsingleton.elim _ _
    have hd : d = 0 := Subsingleton.elim _ _
    subst ha hb hc hd
    simp [RpaTensor.kanamoriCharge, RpaTensor.kanamoriSpin, RpaTensor.kanamoriElement]
  have := C72_value hr mesh hm U Up J Jp chi0 p hp ord hord
  rw [e] at this ⊢
  exact this

theorem rpaPoint_one (x u : ℂ) (h : 1 - x * u ≠ 0) :
    Rpa.rpaPoint (fun _ _ _ _ => x : T4 (Fin 1)) (fun _ _ _ _ => u) 0 0 0 0 = x / (1 - x * u) := by
  have hdet : IsUnit (1 - Rpa.pairMat (fun _ _ _ _ => x : T4 (Fin 1)) * Rpa.pairMat (fun _ _ _ _ => u)).det := by
    let _ : Unique (Fin 1 × Fin 1) := ⟨⟨(0, 0)⟩, fun _ => Subsingleton.elim _ _⟩
    rw [Matrix.det_unique, Matrix.sub_apply, Matrix.mul_apply]
    simp [Rpa.pairMat, h]
  have hs := (Rpa.unswappedRpa_iff _ _ _).1 (Rpa.C14_rpa_solves_unswapped 1 one_pos [()] (by simp)
    (fun _ => (fun _ _ _ _ => x : T4 (Fin 1))) (fun _ _ _ _ => u) () (by simp) hdet)
  rw [Rpa.solveRpaPH_apply 1 one_pos [()] (by simp) _ _ () (by simp)] at hs
  have h0 := congrFun (congrFun hs (0, 0)) (0, 0)
  rw [Matrix.add_apply, Matrix.mul_apply] at h0
  simp only [Fintype.sum_prod_type, Finset.univ_unique, Finset.sum_singleton, Matrix.mul_apply, Rpa.pairMat,
    Fin.default_eq_zero] at h0
  rw [eq_div_iff h]
  linear_combination h0

/-- C72 is violated: one orbital, `χ₀ = 1/2`, `U = 1`.  The density susceptibility of the ingredients is enhanced to
`1` (the charge RPA gives `1/3`), the magnetic one is suppressed to `1/3` (the spin RPA gives `1`). -/
theorem C72_violated {ranks : ℕ} (hr : 0 < ranks) (ord : List ℕ → List ℕ) (hord : ∀ l, (ord l).Perm l) :
    let ing := createIngredients (m := 1) ranks [()] 1 0 0 0 fun _ _ _ _ _ => 1 / 2
    ing.chiD () 0 0 0 0 = 1 ∧ ing.chiM () 0 0 0 0 = 1 / 3 ∧
    ing.chiD () ≠ Rpa.chiRpaCharge ord (fun _ _ _ _ => 1 / 2) ing.Ud ∧
    ing.chiM () ≠ Rpa.chiRpaSpin ord (fun _ _ _ _ => 1 / 2) ing.Um := by
  have hK : ∀ a b c d : Fin 1, RpaTensor.kanamoriElement (n := 1) 1 0 0 0 a b c d = (1, 1) := by
    intro a b c d
    have ha : a = 0 := Subsingleton.elim _ _
    have hb : b = 0 := Subsingleton.elim _ _
    have hc : c = 0 := Subsingleton.elim _ _
    have hd : d = 0 := Subsingleton.elim _ _
    subst ha hb hc hd
    simp [RpaTensor.kanamoriElement]
  have hc : RpaTensor.kanamoriCharge 1 1 0 0 0 = fun _ _ _ _ => 1 := by
    funext a b c d; rw [RpaTensor.kanamoriCharge, hK]
  have hs : RpaTensor.kanamoriSpin 1 1 0 0 0 = fun _ _ _ _ => 1 := by
    funext a b c d; rw [RpaTensor.kanamoriSpin, hK]
  have e1 : (createIngredients (m := 1) ranks [()] 1 0 0 0 fun _ _ _ _ _ => 1 / 2).chiD () 0 0 0 0 = 1 := by
    change Rpa.solveRpaPH ranks [()] _ (RpaTensor.kanamoriCharge 1 1 0 0 0) () 0 0 0 0 = 1
    rw [Rpa.solveRpaPH_apply ranks hr [()] (by simp) _ _ () (by simp), hc, rpaPoint_one _ _ (by norm_num)]
    norm_num
  have e2 : (createIngredients (m := 1) ranks [()] 1 0 0 0 fun _ _ _ _ _ => 1 / 2).chiM () 0 0 0 0 = 1 / 3 := by
    change Rpa.solveRpaPH ranks [()] _ (fun a b c d => -RpaTensor.kanamoriSpin 1 1 0 0 0 a b c d) () 0 0 0 0 = 1 / 3
    rw [Rpa.solveRpaPH_apply ranks hr [()] (by simp) _ _ () (by simp), hs, rpaPoint_one _ _ (by norm_num)]
    norm_num
  refine ⟨e1, e2, fun h => ?_, fun h => ?_⟩
  · have h0 := congrFun (congrFun (congrFun (congrFun h 0) 0) 0) 0
    rw [e1] at h0
    change 1 = Rpa.chiRpaCharge ord (fun _ _ _ _ => 1 / 2) (RpaTensor.kanamoriCharge 1 1 0 0 0) 0 0 0 0 at h0
    rw [Rpa.chiRpaCharge_eq, Rpa.chiRpaSpin_eq 1 ord hord, hc, rpaPoint_one _ _ (by norm_num)] at h0
    norm_num at h0
  · have h0 := congrFun (congrFun (congrFun (congrFun h 0) 0) 0) 0
    rw [e2] at h0
    change 1 / 3 = Rpa.chiRpaSpin ord (fun _ _ _ _ => 1 / 2) (RpaTensor.kanamoriSpin 1 1 0 0 0) 0 0 0 0 at h0
    rw [Rpa.chiRpaSpin_eq 1 ord hord, hs, rpaPoint_one _ _ (by norm_num)] at h0
    norm_num at h0

/-! ## C80 -/

/-- the constant part a call asks for, if it asks for one -/
def Const.asked {K T : Type*} : Const K T → Option (K → T)
  | .none => Option.none
  | .float x => some fun _ => x
  | .array x => some x
  | .gf x => some x
  | .other x => some fun _ => x

/-- C80: whatever constant is given, the two parts returned add up to the vertex, on the whole mesh. -/
theorem C80_sum {W : Type*} {ranks : ℕ} (hr : 0 < ranks) {lat : List (Lat n)} (hc : Complete lat)
    (tail0 : (W → T4 o) → T4 o) (gamma : W → Lat n → T4 o) (c : Const (Lat n) (T4 o)) (w : W) (k : Lat n) :
    (preprocess (Util.split ranks lat tail0 gamma) gamma c).1 w k
      + (preprocess (Util.split ranks lat tail0 gamma) gamma c).2 k = gamma w k := by
  cases c <;> simp [preprocess, Util.split, hc.assign hr]

/-- C80 (constants of type float, array or Green's function): the constant part is the one given. -/
theorem C80_given_partial {W K T : Type*} [Sub T] (fit : (W → K → T) × (K → T)) (gamma : W → K → T)
    (c : Const K T) (hc : ∀ x, c ≠ .other x) (x : K → T) (hx : c.asked = some x) :
    preprocess fit gamma c = (fun w k => gamma w k - x k, x) := by
  cases c with
  | none => cases hx
  | other y => exact absurd rfl (hc y)
  | float y => cases hx; rfl
  | array y => cases hx; rfl
  | gf y => cases hx; rfl

/-- C80 is violated for constants of any other numerical type (integers, complex numbers, NumPy scalars): they are
silently replaced by the fit. -/
theorem C80_given_violated {W K T : Type*} [Sub T] (fit : (W → K → T) × (K → T)) (gamma : W → K → T) (x : T) :
    preprocess fit gamma (.other x) = preprocess fit gamma .none := rfl

/-- concrete case: the vertex is the constant `5`, the fit finds it, the integer `0` is asked for -/
example : (preprocess (W := ℤ) (K := Unit) (T := ℤ) (fun _ _ => 0, fun _ => 5) (fun _ _ => 5) (.other 0)).2 ()
    ≠ 0 := by decide

/-- C80: without a constant the fitted one is used. -/
theorem C80_fit {W K T : Type*} [Sub T] (fit : (W → K → T) × (K → T)) (gamma : W → K → T) :
    preprocess fit gamma .none = fit := rfl

/-- C80 for DLR meshes: only Green's functions and no constant are accepted; then both parts add up to the vertex and
the constant is the one given (zero by default). -/
theorem C80_dlr {W K T : Type*} [AddCommGroup T] (gamma : W → K → T) (c : Const K T) :
    (∀ r, preprocessDlr gamma c = some r → (∀ w k, r.1 w k + r.2 k = gamma w k) ∧
      ∀ k, r.2 k = (c.asked.getD fun _ => 0) k) ∧
    (preprocessDlr gamma c = none ↔ (∃ x, c = .float x) ∨ (∃ x, c = .array x) ∨ ∃ x, c = .other x) := by
  cases c <;> simp [preprocessDlr, Const.asked]

/-- C80: the split does not change the Fourier route: for the vertex `gamma` and any constant with
`ConvPair` transforms the product is that of the same full vertex as long as the dynamic part is given on its whole
mesh (stated in `C58_fft_value`); here: transforms of the constant part return it. -/
theorem C80_constant_transform (toTau : (ℤ → ℂ) → ℕ → ℂ) (dyn : ℤ → Lat n → T4 o) (const : Lat n → T4 o) :
    rToK (dynamicAndConstantToTr toTau dyn const).2 = const := rToK_kToR const

end Verif.Eliashberg
