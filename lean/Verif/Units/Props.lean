import Verif.Units.Lemmas
import Verif.Dyson.Model
import Verif.FreqConv.Model
import Verif.Lindhard.Props
import Verif.Eliashberg.Model
import Verif.HubbardAtom.Model
import Mathlib.Analysis.SpecialFunctions.Trigonometric.DerivHyp

/-!
# C126: the unit and the zero of energy

A user may measure energies in eV or in units of the hopping, and may count them from any zero. The change of description
`ε ↦ l ε + c` turns a calculation into another one: dispersion `l e(k) + c`, chemical potential `l μ + c`, self energy and
interaction `l Σ`, `l U`, Matsubara frequencies `l iν`, inverse temperature `β / l`. Here: what the functions of the library
return for the second calculation, in terms of the first.
-/

set_option linter.unusedSectionVars false

noncomputable section

namespace Verif.Units

open Verif.Parallel Verif.Fourier

/-- the dispersion in the other description -/
def affine {K n F : Type*} [Field F] [DecidableEq n] (l c : F) (e : K → Matrix n n F) : K → Matrix n n F :=
  fun k => l • e k + c • (1 : Matrix n n F)

/-! ## Dyson equation -/

section Dyson

open Verif.Dyson

variable {F : Type*} [Field F] {n : Type*} [Fintype n] [DecidableEq n] {W K : Type*} [DecidableEq W] [DecidableEq K]

/-- the self energy in the other unit -/
def scaleSigma (l : F) : Sigma W K n F → Sigma W K n F
  | .local s => .local fun w => l • s w
  | .lattice s => .lattice fun w k => l • s w k

theorem scaleSigma_term (l : F) (s : Sigma W K n F) (w : W) (k : K) : (scaleSigma l s).term w k = l • s.term w k := by
  cases s <;> rfl

theorem dyson_arg (l c z mu : F) (e s : Matrix n n F) :
    (l * z + (l * mu + c)) • (1 : Matrix n n F) - (l • e + c • 1) - l • s = l • ((z + mu) • (1 : Matrix n n F) - e - s) := by
  rw [smul_sub, smul_sub, smul_smul, add_smul, add_smul, mul_add, add_smul]
  abel

/-- C126: the lattice Green's functions are those of the first calculation divided by the unit; the zero drops out. -/
theorem C126_dyson {l : F} (hl : l ≠ 0) (c : F) (ranks : ℕ) (mu : F) (val : W → F) (wmesh : List W) (kmesh : List K)
    (e : K → Matrix n n F) (sigma : Sigma W K n F) (idelta : F) :
    latticeDysonG0Xk ranks (l * mu + c) (fun w => l * val w) wmesh kmesh (affine l c e)
        = (fun p => l⁻¹ • latticeDysonG0Xk ranks mu val wmesh kmesh e p) ∧
      latticeDysonG0fk ranks (l * mu + c) (fun w => l * val w) wmesh kmesh (affine l c e) (l * idelta)
        = (fun p => l⁻¹ • latticeDysonG0fk ranks mu val wmesh kmesh e idelta p) ∧
      latticeDysonGXk ranks (l * mu + c) (fun w => l * val w) wmesh kmesh (affine l c e) (scaleSigma l sigma) (l * idelta)
        = (fun p => l⁻¹ • latticeDysonGXk ranks mu val wmesh kmesh e sigma idelta p) ∧
      latticeDysonGX ranks (l * mu + c) (fun w => l * val w) wmesh kmesh (affine l c e) (scaleSigma l sigma) (l * idelta)
        = (fun w => l⁻¹ • latticeDysonGX ranks mu val wmesh kmesh e sigma idelta w) := by
  have h0 : ∀ (z : F) (x : Matrix n n F), ((l * z + (l * mu + c)) • (1 : Matrix n n F) - (l • x + c • 1))⁻¹
      = l⁻¹ • ((z + mu) • (1 : Matrix n n F) - x)⁻¹ := by
    intro z x
    have := dyson_arg l c z mu x 0
    rw [smul_zero, sub_zero, sub_zero] at this
    rw [this, inv_smul_all _ hl]
  refine ⟨?_, ?_, ?_, ?_⟩
  · unfold latticeDysonG0Xk affine
    simp only [h0]
    exact distributedAssign_smul _ _ _ _
  · unfold latticeDysonG0fk affine
    simp only [← mul_add l, h0]
    exact distributedAssign_smul _ _ _ _
  · unfold latticeDysonGXk affine
    simp only [scaleSigma_term, ← mul_add l, dyson_arg, inv_smul_all _ hl]
    exact distributedAssign_smul _ _ _ _
  · unfold latticeDysonGX affine
    simp only [scaleSigma_term, ← mul_add l, dyson_arg, inv_smul_all _ hl]
    funext w
    have : (fun (k : K) (w : W) => if w ∈ wmesh then
          l⁻¹ • ((val w + idelta + mu) • (1 : Matrix n n F) - e k - sigma.term w k)⁻¹ else 0)
        = fun k w => l⁻¹ • (if w ∈ wmesh then ((val w + idelta + mu) • (1 : Matrix n n F) - e k - sigma.term w k)⁻¹ else 0) := by
      funext k w
      split_ifs
      · rfl
      · rw [smul_zero]
    rw [this, distributedAccumulate_smul, smul_comm]

end Dyson

/-! ## Bubbles -/

section Bubble

open Verif.Bubble

variable {d : ℕ} {n : Fin d → ℕ} [∀ i, NeZero (n i)] {o : Type*} [Fintype o] [DecidableEq o]

/-- C126: the bubbles. At two frequencies they are divided by the third power of the unit, at one frequency (the integral over
imaginary time of the dimensionless product of two Green's functions) by the unit. -/
theorem C126_bubble {l : ℂ} (hl : l ≠ 0) (c : ℂ) (ranks : ℕ) (beta mu : ℂ) (rmesh : List (Lat n)) (g : G n o)
    (iv : ℤ → ℂ) (e : Lat n → Matrix o o ℂ) (sigma : ℤ → Matrix o o ℂ) (L : ℕ) (gt : ℕ → Lat n → o → o → ℂ) :
    chi0rFromGr ranks (l⁻¹ * beta) rmesh (l⁻¹ • g) = (fun r => l⁻¹ ^ 3 • chi0rFromGr ranks beta rmesh g r) ∧
      chi0nFromGwk (l⁻¹ * beta) (l⁻¹ • g) = l⁻¹ ^ 3 • chi0nFromGwk beta g ∧
      chi0nFromEkSigma (l⁻¹ * beta) (l * mu + c) (fun m => l * iv m) (affine l c e) (fun m => l • sigma m)
        = l⁻¹ ^ 3 • chi0nFromEkSigma beta mu iv e sigma ∧
      chi0W0r ranks (l⁻¹ * beta) L rmesh gt = fun r => l⁻¹ • chi0W0r ranks beta L rmesh gt r := by
  refine ⟨?_, ?_, ?_, ?_⟩
  · unfold chi0rFromGr
    rw [← distributedAssign_smul]
    congr 1
    funext r w nu a b c d
    simp only [chi0rPoint, Pi.smul_apply, smul_eq_mul]
    ring
  · funext w q nu a b c d
    simp only [chi0nFromGwk, Pi.smul_apply, smul_eq_mul, Finset.sum_mul, Finset.mul_sum]
    refine Finset.sum_congr rfl fun k _ => ?_
    ring
  · funext w q nu a b c' d
    simp only [chi0nFromEkSigma, affine, dyson_arg, inv_smul_all _ hl, Pi.smul_apply, Matrix.smul_apply, smul_eq_mul,
      Finset.sum_mul, Finset.mul_sum]
    refine Finset.sum_congr rfl fun k _ => ?_
    ring
  · unfold chi0W0r
    rw [← distributedAssign_smul]
    congr 1
    funext r
    rw [trapz, trapz, smul_smul, mul_div_assoc]

/-- C126: the two particle quantities of the impurity. -/
theorem C126_impurity {l : ℂ} (beta : ℂ) (g : FreqConv.G1 o ℂ) (g2 : FreqConv.G3 o ℂ) :
    FreqConv.chi0PH (l⁻¹ * beta) (l⁻¹ • g) = l⁻¹ ^ 3 • FreqConv.chi0PH beta g ∧
      FreqConv.chiPH (l⁻¹ * beta) (l⁻¹ • g) (l⁻¹ ^ 3 • g2) = l⁻¹ ^ 3 • FreqConv.chiPH beta g g2 ∧
      FreqConv.chi0PP (l⁻¹ * beta) (l⁻¹ • g) = l⁻¹ ^ 3 • FreqConv.chi0PP beta g ∧
      FreqConv.chiPP (l⁻¹ * beta) (l⁻¹ • g) (l⁻¹ ^ 3 • g2) = l⁻¹ ^ 3 • FreqConv.chiPP beta g g2 := by
  refine ⟨?_, ?_, ?_, ?_⟩ <;> funext w n m a b c d <;>
    simp only [FreqConv.chi0PH, FreqConv.chiPH, FreqConv.chi0PP, FreqConv.chiPP, Pi.smul_apply, smul_eq_mul] <;> ring

end Bubble

/-! ## Bethe-Salpeter equation -/

section Bse

open Verif.Bse

variable {F : Type*} [Field F] {o : Type*} [Fintype o] [DecidableEq o] {ν : Type*} [Fintype ν] [DecidableEq ν]
  {W K : Type*} [DecidableEq W] [DecidableEq K]

/-- C126: the irreducible vertex of the impurity is multiplied with the third power of the unit. -/
theorem C126_vertex {l : F} (hl : l ≠ 0) (chi0 chi : W → T6 ν o F) :
    solveLocalBse (l⁻¹ ^ 3 • chi0) (l⁻¹ ^ 3 • chi) = l ^ 3 • solveLocalBse chi0 chi ∧
      reducibleVertexF (l⁻¹ ^ 3 • chi0) (l⁻¹ ^ 3 • chi) = l ^ 3 • reducibleVertexF chi0 chi := by
  have h3 : l⁻¹ ^ 3 ≠ 0 := pow_ne_zero _ (inv_ne_zero hl)
  have e3 : (l⁻¹ ^ 3)⁻¹ = l ^ 3 := by rw [inv_pow, inv_inv]
  constructor
  · funext w
    simp only [solveLocalBse, inverseIw, Pi.smul_apply]
    rw [inverse_smul _ h3, inverse_smul _ h3, e3, ← smul_sub]
  · funext w
    simp only [reducibleVertexF, inverseIw, productIw, Pi.smul_apply]
    rw [inverse_smul _ h3, ← smul_sub, product_smul, product_smul, e3]
    congr 1
    rw [inv_pow, inv_mul_cancel₀ (pow_ne_zero 3 hl), mul_one]

/-- C126: the susceptibility of `solve_lattice_bse`, from the vertex of the impurity, is divided by the unit. -/
theorem C126_bse {l : F} (hl : l ≠ 0) (ranks : ℕ) (beta : F) (mesh : List (K × W)) (wkmesh : List (W × K))
    (chi0tail : W → K → T4 o F) (chi0 : W → ν → K → T4 o F) (imp0 imp : W → T6 ν o F) :
    let s := solveLatticeBse ranks beta mesh wkmesh chi0tail chi0 (solveLocalBse imp0 imp)
    let s' := solveLatticeBse ranks (l⁻¹ * beta) mesh wkmesh (l⁻¹ • chi0tail) (l⁻¹ ^ 3 • chi0)
      (solveLocalBse (l⁻¹ ^ 3 • imp0) (l⁻¹ ^ 3 • imp))
    s' = (l⁻¹ • s.1, l⁻¹ • s.2) := by
  intro s s'
  have h3 : l⁻¹ ^ 3 ≠ 0 := pow_ne_zero _ (inv_ne_zero hl)
  have e3 : (l⁻¹ ^ 3)⁻¹ = l ^ 3 := by rw [inv_pow, inv_inv]
  have hq : l⁻¹ ^ 3 / (l⁻¹ * l⁻¹) = l⁻¹ := by field_simp
  have h1 : chiqSumNuFromChi0qAndGamma ranks (l⁻¹ * beta) mesh (l⁻¹ ^ 3 • chi0)
      (solveLocalBse (l⁻¹ ^ 3 • imp0) (l⁻¹ ^ 3 • imp))
      = fun p => l⁻¹ • chiqSumNuFromChi0qAndGamma ranks beta mesh chi0 (solveLocalBse imp0 imp) p := by
    rw [(C126_vertex hl imp0 imp).1]
    unfold chiqSumNuFromChi0qAndGamma
    rw [← distributedAssign_smul]
    congr 1
    funext p
    have : (fun n => (l⁻¹ ^ 3 • chi0) p.2 n p.1) = l⁻¹ ^ 3 • fun n => chi0 p.2 n p.1 := rfl
    rw [this, diagEmbed_smul, Pi.smul_apply, ← e3, bsePoint_smul h3, traceNu_smul, hq]
  have h2 : chi0qSumNu ranks (l⁻¹ * beta) wkmesh (l⁻¹ ^ 3 • chi0) = fun p => l⁻¹ • chi0qSumNu ranks beta wkmesh chi0 p := by
    unfold chi0qSumNu
    rw [← distributedAssign_smul]
    congr 1
    funext p a b c d
    simp only [Pi.smul_apply, smul_eq_mul, ← Finset.mul_sum]
    conv_rhs => rw [← hq, div_mul_div_comm]
    congr 1
    ring
  refine Prod.ext ?_ ?_
  · funext p
    change chiqSumNuFromChi0qAndGamma ranks (l⁻¹ * beta) mesh (l⁻¹ ^ 3 • chi0) _ p
      + ((l⁻¹ • chi0tail) p.2 p.1 - chi0qSumNu ranks (l⁻¹ * beta) wkmesh (l⁻¹ ^ 3 • chi0) (p.2, p.1)) = l⁻¹ • (_ + (_ - _))
    rw [h1, h2, smul_add, smul_sub]
    rfl
  · rfl

/-- C126: the susceptibility of `solve_lattice_dbse`: the triangular vertex `L` and the full vertex `F` carry their units. -/
theorem C126_dbse {l : F} (hl : l ≠ 0) (ranks : ℕ) (mesh : List (K × W)) (chi0nl : W → ν → K → T4 o F)
    (imp0 imp : W → T6 ν o F) (L : W → ν → T4 o F) (chiImp : W → T4 o F) :
    solveLatticeDbse ranks mesh (l⁻¹ ^ 3 • chi0nl) (reducibleVertexF (l⁻¹ ^ 3 • imp0) (l⁻¹ ^ 3 • imp)) (l • L) (l⁻¹ • chiImp)
      = l⁻¹ • solveLatticeDbse ranks mesh chi0nl (reducibleVertexF imp0 imp) L chiImp := by
  have h3 : l⁻¹ ^ 3 ≠ 0 := pow_ne_zero _ (inv_ne_zero hl)
  have e3 : (l⁻¹ ^ 3)⁻¹ = l ^ 3 := by rw [inv_pow, inv_inv]
  have hq : l * l⁻¹ ^ 3 * l = l⁻¹ := by field_simp
  rw [(C126_vertex hl imp0 imp).2]
  funext p
  have h1 : chiqSumNuL ranks mesh (l⁻¹ ^ 3 • chi0nl) (l ^ 3 • reducibleVertexF imp0 imp) (l • L)
      = fun p => l⁻¹ • chiqSumNuL ranks mesh chi0nl (reducibleVertexF imp0 imp) L p := by
    unfold chiqSumNuL
    rw [← distributedAssign_smul]
    congr 1
    funext p
    have : (fun n => (l⁻¹ ^ 3 • chi0nl) p.2 n p.1) = l⁻¹ ^ 3 • fun n => chi0nl p.2 n p.1 := rfl
    rw [this, diagEmbed_smul, Pi.smul_apply, Pi.smul_apply, ← e3, bsePoint_smul h3, scalarProductPH_smul, hq]
  change chiqSumNuL ranks mesh (l⁻¹ ^ 3 • chi0nl) _ (l • L) p + l⁻¹ • chiImp p.2 = l⁻¹ • (_ + _)
  rw [h1, smul_add]

end Bse

/-! ## Random phase approximation and screening -/

section Rpa

open Verif.Rpa

variable {F : Type*} [Field F] {o : Type*} [Fintype o] [DecidableEq o] {P W K : Type*} [DecidableEq P] [DecidableEq W]
  [DecidableEq K]

/-- the interaction in the other unit -/
def scaleBare (l : F) : Bare W K o F → Bare W K o F
  | .static v => .static fun k => l • v k
  | .dynamic v => .dynamic fun w k => l • v w k

theorem scaleBare_at (l : F) (V : Bare W K o F) (w : W) (k : K) : (scaleBare l V).at w k = l • V.at w k := by
  cases V <;> rfl

/-- C126: the susceptibility of the random phase approximation is divided by the unit, the screened interaction (in each of
its forms) multiplied with it. -/
theorem C126_rpa {l : F} (hl : l ≠ 0) (ranks : ℕ) (mesh : List P) (chi0 : P → T4 o F) (U : T4 o F) (wk : List (W × K))
    (kmesh vkmesh : List K) (chi : W × K → T4 o F) (V : Bare W K o F) (Vk : K → T4 o F) :
    solveRpaPH ranks mesh (l⁻¹ • chi0) (l • U) = (fun p => l⁻¹ • solveRpaPH ranks mesh chi0 U p) ∧
      screenedBubble ranks wk kmesh vkmesh (l⁻¹ • chi) (scaleBare l V)
        = (screenedBubble ranks wk kmesh vkmesh chi V).map (fun f p => l • f p) ∧
      screenedGeneralized ranks wk kmesh vkmesh (l⁻¹ • chi) (scaleBare l V)
        = (screenedGeneralized ranks wk kmesh vkmesh chi V).map (fun f p => l • f p) ∧
      screenedOpt ranks wk kmesh vkmesh (l⁻¹ • chi) (l • Vk)
        = (screenedOpt ranks wk kmesh vkmesh chi Vk).map (fun f p => l • f p) := by
  refine ⟨?_, ?_, ?_, ?_⟩
  · unfold solveRpaPH
    simp only [Pi.smul_apply, rpaPoint_smul hl]
    exact distributedAssign_smul _ _ _ _
  · unfold screenedBubble
    split_ifs
    · rfl
    · simp only [Pi.smul_apply, scaleBare_at, screenedBubblePoint_smul hl]
      exact congrArg Except.ok (distributedAssign_smul _ _ _ _)
  · unfold screenedGeneralized
    split_ifs
    · rfl
    · simp only [Pi.smul_apply, scaleBare_at, screenedGeneralizedPoint_smul hl]
      exact congrArg Except.ok (distributedAssign_smul _ _ _ _)
  · unfold screenedOpt
    split_ifs
    · rfl
    · simp only [Pi.smul_apply, screenedOptPoint_smul hl]
      exact congrArg Except.ok (distributedAssign_smul _ _ _ _)

end Rpa

/-! ## Eliashberg equation -/

section Eliashberg

open Verif.Eliashberg Verif.Bubble

variable {d : ℕ} {n : Fin d → ℕ} [∀ i, NeZero (n i)] {o : Type*} [Fintype o] [DecidableEq o]

theorem gDeltaG_scale (l : ℝ) (ranks N Ng : ℕ) (lat : List (Lat n)) (g delta : ℤ → Lat n → o → o → ℂ) :
    gDeltaG ranks N Ng lat ((l : ℂ)⁻¹ • g) delta
      = (gDeltaG ranks N Ng lat g delta).map fun F => ((l : ℂ)⁻¹ * (l : ℂ)⁻¹) • F := by
  unfold gDeltaG
  split_ifs
  · rfl
  · refine congrArg Except.ok ?_
    have h : ∀ p : ℤ × Lat n, gdgPoint (((l : ℂ)⁻¹ • g) p.1 p.2) (((l : ℂ)⁻¹ • g) p.1 (-p.2)) (delta p.1 p.2)
        = ((l : ℂ)⁻¹ * (l : ℂ)⁻¹) • gdgPoint (g p.1 p.2) (g p.1 (-p.2)) (delta p.1 p.2) := by
      intro p
      funext a b
      simp only [gdgPoint, Pi.smul_apply, smul_eq_mul, Finset.mul_sum, map_mul, map_inv₀, Complex.conj_ofReal]
      refine Finset.sum_congr rfl fun e _ => Finset.sum_congr rfl fun f _ => ?_
      ring
    simp only [h]
    exact distributedAssign_smul _ _ _ _

theorem kToR_smul {E : Type*} [AddCommGroup E] [Module ℂ E] (c : ℂ) (f : Lat n → E) : kToR (c • f) = c • kToR f := by
  funext r
  simp only [kToR, fftw, Pi.smul_apply, Finset.smul_sum]
  refine Finset.sum_congr rfl fun k _ => ?_
  rw [smul_comm c, smul_comm c]

theorem gammaF_smul (a b : ℂ) (gamma : Bubble.T4 o) (F : o → o → ℂ) :
    gammaF (a • gamma) (b • F) = (a * b) • gammaF gamma F := by
  funext i j
  simp only [gammaF, Pi.smul_apply, smul_eq_mul, Finset.mul_sum]
  refine Finset.sum_congr rfl fun e _ => Finset.sum_congr rfl fun f _ => ?_
  ring

/-- C126: the Eliashberg product, hence its eigenvalues and eigenvectors, does not depend on the unit. -/
theorem C126_eliashberg {l : ℝ} (hl : l ≠ 0) (ranks N Ng NG : ℕ) (beta : ℝ) (lat : List (Lat n))
    (gamma : ℤ → Lat n → Bubble.T4 o) (g delta : ℤ → Lat n → o → o → ℂ) :
    eliashbergProduct ranks N Ng NG (beta / l) lat ((l : ℂ) • gamma) ((l : ℂ)⁻¹ • g) delta
      = eliashbergProduct ranks N Ng NG beta lat gamma g delta := by
  have hl' : (l : ℂ) ≠ 0 := Complex.ofReal_ne_zero.2 hl
  unfold eliashbergProduct
  split_ifs
  · rfl
  · rw [gDeltaG_scale]
    cases gDeltaG ranks N Ng lat g delta with
    | error e => rfl
    | ok F =>
      change Except.ok _ = Except.ok _
      refine congrArg Except.ok ?_
      have h : ∀ (w : ℤ) (k : Lat n) (a b : o),
          ((gapMesh N lat).map fun p => gammaF (((l : ℂ) • gamma) (w - p.1) (k - p.2)) ((((l : ℂ)⁻¹ * (l : ℂ)⁻¹) • F) p) a b).sum
            / (((beta / l : ℝ) : ℂ) * lat.length)
          = ((gapMesh N lat).map fun p => gammaF (gamma (w - p.1) (k - p.2)) (F p) a b).sum / (beta * lat.length) := by
        intro w k a b
        simp only [Pi.smul_apply, gammaF_smul, smul_eq_mul]
        rw [List.sum_map_mul_left, Complex.ofReal_div]
        rw [show (l : ℂ) * ((l : ℂ)⁻¹ * (l : ℂ)⁻¹) = (l : ℂ)⁻¹ by field_simp]
        by_cases hb : (beta : ℂ) * lat.length = 0
        · rw [hb, div_zero, div_mul_eq_mul_div, hb, zero_div, div_zero]
        · rw [div_mul_eq_mul_div, div_div_eq_mul_div, mul_comm, ← mul_assoc, mul_inv_cancel₀ hl', one_mul]
      simp only [h]

/-- C126: the same for the product with Fourier transforms, whose transforms to and from imaginary time carry `1 / β` and the
time step: `1 / β Σ` turns the unit `l⁻²` into `l⁻¹`, the integral over time `l` into `1`. -/
theorem C126_eliashberg_fft {l : ℝ} (hl : l ≠ 0) (ranks N Ng L LG : ℕ) (T T' : Transforms)
    (hT : ∀ f : ℤ → ℂ, T'.toTau (((l : ℂ)⁻¹ * (l : ℂ)⁻¹) • f) = (l : ℂ)⁻¹ • T.toTau f)
    (hT' : ∀ f : ℕ → ℂ, T'.toFreq ((l : ℂ) • f) = T.toFreq f) (lat : List (Lat n))
    (gammaDyn : ℕ → Lat n → Bubble.T4 o) (gammaConst : Lat n → Bubble.T4 o) (g delta : ℤ → Lat n → o → o → ℂ) :
    eliashbergProductFFT ranks N Ng L LG T' lat ((l : ℂ) ^ 2 • gammaDyn) ((l : ℂ) • gammaConst) ((l : ℂ)⁻¹ • g) delta
      = eliashbergProductFFT ranks N Ng L LG T lat gammaDyn gammaConst g delta := by
  have hl' : (l : ℂ) ≠ 0 := Complex.ofReal_ne_zero.2 hl
  unfold eliashbergProductFFT
  rw [gDeltaG_scale]
  cases gDeltaG ranks N Ng lat g delta with
  | error e => rfl
  | ok F =>
    have hF : fTr T' (((l : ℂ)⁻¹ * (l : ℂ)⁻¹) • F) = (l : ℂ)⁻¹ • fTr T F := by
      funext t r a b
      have h1 : (fun w => kToR (fun k => (((l : ℂ)⁻¹ * (l : ℂ)⁻¹) • F) (w, k)) r a b)
          = ((l : ℂ)⁻¹ * (l : ℂ)⁻¹) • fun w => kToR (fun k => F (w, k)) r a b := by
        funext w
        have h2 : (fun k => (((l : ℂ)⁻¹ * (l : ℂ)⁻¹) • F) (w, k)) = ((l : ℂ)⁻¹ * (l : ℂ)⁻¹) • fun k => F (w, k) := rfl
        rw [h2, kToR_smul]
        rfl
      change T'.toTau (fun w => kToR (fun k => (((l : ℂ)⁻¹ * (l : ℂ)⁻¹) • F) (w, k)) r a b) t = _
      rw [h1, hT]
      rfl
    have hdyn : dynamicGammaF ranks L LG lat ((l : ℂ) ^ 2 • gammaDyn) ((l : ℂ)⁻¹ • fTr T F)
        = (dynamicGammaF ranks L LG lat gammaDyn (fTr T F)).map fun f p => (l : ℂ) • f p := by
      unfold dynamicGammaF
      split_ifs
      · rfl
      · refine congrArg Except.ok ?_
        simp only [Pi.smul_apply, gammaF_smul]
        rw [show (l : ℂ) ^ 2 * (l : ℂ)⁻¹ = l by field_simp]
        exact distributedAssign_smul _ _ _ _
    have hconst : constantGammaF ((l : ℂ) • gammaConst) ((l : ℂ)⁻¹ • fTr T F) = constantGammaF gammaConst (fTr T F) := by
      funext r
      simp only [constantGammaF, Pi.smul_apply, gammaF_smul]
      rw [mul_inv_cancel₀ hl', one_smul]
    change (match dynamicGammaF ranks L LG lat ((l : ℂ) ^ 2 • gammaDyn) (fTr T' (((l : ℂ)⁻¹ * (l : ℂ)⁻¹) • F)) with
      | .error e => Except.error e
      | .ok dyn => Except.ok fun w => rToK fun r a b => T'.toFreq (fun t => dyn (t, r) a b) w
          + constantGammaF ((l : ℂ) • gammaConst) (fTr T' (((l : ℂ)⁻¹ * (l : ℂ)⁻¹) • F)) r a b)
      = (match dynamicGammaF ranks L LG lat gammaDyn (fTr T F) with
      | .error e => Except.error e
      | .ok dyn => Except.ok fun w => rToK fun r a b => T.toFreq (fun t => dyn (t, r) a b) w
          + constantGammaF gammaConst (fTr T F) r a b)
    rw [hF, hdyn, hconst]
    cases dynamicGammaF ranks L LG lat gammaDyn (fTr T F) with
    | error e => rfl
    | ok dyn =>
      change Except.ok _ = Except.ok _
      refine congrArg Except.ok ?_
      funext w
      congr 1
      funext r a b
      congr 1
      exact congrFun (hT' fun t => dyn (t, r) a b) w

end Eliashberg

end Verif.Units
