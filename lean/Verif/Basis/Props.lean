import Verif.Basis.Lemmas
import Verif.Dyson.Model
import Verif.Bse.Model
import Verif.Lindhard.Props

/-!
# C104: results do not depend on the choice of the orbital basis (lattice routines)
-/

set_option linter.unusedSectionVars false

noncomputable section

namespace Verif.Basis

open Matrix Verif.Fourier Verif.Bubble Verif.Parallel

variable {o : Type*} [Fintype o] [DecidableEq o] {d : ℕ} {n : Fin d → ℕ} [∀ i, NeZero (n i)] {S : Matrix o o ℂ}

/-! ## Lattice Dyson equation -/

theorem dyson_point (hS : Unitary S) (z : ℂ) (e : Matrix o o ℂ) :
    (z • (1 : Matrix o o ℂ) - rotG S e)⁻¹ = rotG S (z • (1 : Matrix o o ℂ) - e)⁻¹ := by
  rw [rotG_eq, rotG_eq, ← conj_inv hS, mul_sub, sub_mul, Matrix.mul_smul, Matrix.smul_mul, Matrix.mul_one, hS.right]

theorem rotG_add (X Y : Matrix o o ℂ) : rotG S (X + Y) = rotG S X + rotG S Y := by
  simp only [rotG_eq, mul_add, add_mul]

/-- a rotated self energy argument -/
def rotSigma {W K : Type*} (S : Matrix o o ℂ) : Dyson.Sigma W K o ℂ → Dyson.Sigma W K o ℂ
  | .local s => .local fun w => rotG S (s w)
  | .lattice s => .lattice fun w k => rotG S (s w k)

theorem rotSigma_term {W K : Type*} (s : Dyson.Sigma W K o ℂ) (w : W) (k : K) :
    (rotSigma S s).term w k = rotG S (s.term w k) := by
  cases s <;> rfl

/-- `rotG` as an additive map -/
def rotGHom (S : Matrix o o ℂ) : Matrix o o ℂ →+ Matrix o o ℂ where
  toFun := rotG S
  map_zero' := by rw [rotG_eq, Matrix.mul_zero, Matrix.zero_mul]
  map_add' := rotG_add

/-- C104: the non-interacting lattice Green's function of the rotated dispersion is the rotated Green's function. -/
theorem C104_dyson_free {W K : Type*} [DecidableEq W] [DecidableEq K] (hS : Unitary S) (ranks : ℕ) (mu : ℂ)
    (val : W → ℂ) (wmesh : List W) (kmesh : List K) (e : K → Matrix o o ℂ) (x : W × K) :
    Dyson.latticeDysonG0Xk ranks mu val wmesh kmesh (fun k => rotG S (e k)) x
      = rotG S (Dyson.latticeDysonG0Xk ranks mu val wmesh kmesh e x) := by
  unfold Dyson.latticeDysonG0Xk
  simp only [dyson_point hS]
  exact distributedAssign_map (rotGHom S) ranks _ _ x

/-- C104: the same with a self energy, local or momentum dependent. -/
theorem C104_dyson {W K : Type*} [DecidableEq W] [DecidableEq K] (hS : Unitary S) (ranks : ℕ) (mu : ℂ)
    (val : W → ℂ) (wmesh : List W) (kmesh : List K) (e : K → Matrix o o ℂ) (s : Dyson.Sigma W K o ℂ) (idelta : ℂ)
    (x : W × K) :
    Dyson.latticeDysonGXk ranks mu val wmesh kmesh (fun k => rotG S (e k)) (rotSigma S s) idelta x
      = rotG S (Dyson.latticeDysonGXk ranks mu val wmesh kmesh e s idelta x) := by
  unfold Dyson.latticeDysonGXk
  simp only [rotSigma_term, sub_sub, ← rotG_add, dyson_point hS]
  exact distributedAssign_map (rotGHom S) ranks _ _ x

/-! ## Bubbles -/

theorem chi0rPoint_rot (beta : ℂ) (g : G n o) (r : Lat n) (w nu : ℤ) :
    chi0rPoint beta (fun w r => rotG S (g w r)) r w nu = rotChi S (chi0rPoint beta g r w nu) := by
  funext a b c d
  have h := rot4_outer (cj S) S (cj S) S (g nu r) (g (nu + w) (-r)) a b c d
  have h2 : chi0rPoint beta g r w nu = (-beta) • fun a b c d => g nu r d a * g (nu + w) (-r) b c := by
    funext a b c d
    simp only [chi0rPoint, Pi.smul_apply, smul_eq_mul]
    ring
  rw [rotChi, h2, rot4_smul]
  simp only [Pi.smul_apply, smul_eq_mul, ← h, chi0rPoint, rotG]
  ring

theorem chi0tPoint_rot (L : ℕ) (g : ℕ → Lat n → o → o → ℂ) (r : Lat n) (t : ℕ) :
    chi0tPoint L (fun t r => rotG S (g t r)) r t = rotChi S (chi0tPoint L g r t) := by
  funext a b c d
  exact rot4_outer (cj S) S (cj S) S (g t r) (g (L - t) (-r)) a b c d

theorem rotChi_eq_map (T : T4 o) : rotChi S T = rot4L (cj S) S (cj S) S T := rfl

/-- C104: bubbles in real space, Matsubara frequencies, and their transform to momentum. -/
theorem C104_bubble (ranks : ℕ) (beta : ℂ) (rmesh : List (Lat n)) (g : G n o) (r : Lat n) (w nu : ℤ) :
    chi0rFromGr ranks beta rmesh (fun w r => rotG S (g w r)) r w nu
      = rotChi S (chi0rFromGr ranks beta rmesh g r w nu) := by
  let L : (ℤ → ℤ → T4 o) →+ (ℤ → ℤ → T4 o) :=
    { toFun := fun f w nu => rot4L (cj S) S (cj S) S (f w nu)
      map_zero' := by funext w nu; exact map_zero _
      map_add' := fun f g => by funext w nu; exact map_add _ _ _ }
  have h := distributedAssign_map L ranks rmesh (fun r => chi0rPoint beta g r) r
  have h2 : (fun r => chi0rPoint beta (fun w r => rotG S (g w r)) r) = fun r => L (chi0rPoint beta g r) := by
    funext r w nu
    exact chi0rPoint_rot beta g r w nu
  unfold chi0rFromGr
  rw [h2, h]
  rfl

/-- C104: transform of the bubbles to momentum space. -/
theorem C104_bubble_transform (ranks : ℕ) (wnmesh : List (ℤ × ℤ)) (chi : Lat n → ℤ → ℤ → T4 o) (x : ℤ × ℤ)
    (q : Lat n) :
    chi0qFromChi0r ranks wnmesh (fun r w nu => rotChi S (chi r w nu)) x q
      = rotChi S (chi0qFromChi0r ranks wnmesh chi x q) := by
  let L : (Lat n → T4 o) →+ (Lat n → T4 o) :=
    { toFun := fun f q => rot4L (cj S) S (cj S) S (f q)
      map_zero' := by funext w; exact map_zero _
      map_add' := fun f g => by funext w; exact map_add _ _ _ }
  have h := distributedAssign_map L ranks wnmesh (fun p => rToK fun r => chi r p.1 p.2) x
  have h2 : (fun p : ℤ × ℤ => rToK fun r => rotChi S (chi r p.1 p.2)) = fun p => L (rToK fun r => chi r p.1 p.2) := by
    funext p q
    exact rToK_map (rot4L (cj S) S (cj S) S) _ q
  unfold chi0qFromChi0r
  rw [h2, h]
  rfl

/-- C104: the direct momentum sum. -/
theorem C104_bubble_direct (beta : ℂ) (g : G n o) (w : ℤ) (q : Lat n) (nu : ℤ) :
    chi0nFromGwk beta (fun w k => rotG S (g w k)) w q nu = rotChi S (chi0nFromGwk beta g w q nu) := by
  have h2 : chi0nFromGwk beta g w q nu
      = (beta / Fintype.card (Lat n)) • ∑ k, (-1 : ℂ) • fun a b c d => g nu k d a * g (nu + w) (k - q) b c := by
    funext a b c d
    simp only [chi0nFromGwk, Pi.smul_apply, smul_eq_mul, Finset.sum_apply]
    rw [mul_comm]
    simp
  rw [rotChi_eq_map, h2, map_smul, map_sum]
  funext a b c d
  simp only [map_smul, Pi.smul_apply, smul_eq_mul, Finset.sum_apply, chi0nFromGwk]
  rw [mul_comm]
  congr 1
  refine Finset.sum_congr rfl fun k _ => ?_
  have h := rot4_outer (cj S) S (cj S) S (g nu k) (g (nu + w) (k - q)) a b c d
  change _ = -1 * rot4 (cj S) S (cj S) S (fun a b c d => g nu k d a * g (nu + w) (k - q) b c) a b c d
  rw [← h]
  simp only [rotG]
  ring

/-- C104: the imaginary time bubble. -/
theorem C104_bubble_time (ranks L : ℕ) (rmesh : List (Lat n)) (g : ℕ → Lat n → o → o → ℂ) (r : Lat n) (t : ℕ) :
    chi0tr ranks L rmesh (fun t r => rotG S (g t r)) r t = rotChi S (chi0tr ranks L rmesh g r t) := by
  let M : (ℕ → T4 o) →+ (ℕ → T4 o) :=
    { toFun := fun f t => rot4L (cj S) S (cj S) S (f t)
      map_zero' := by funext w; exact map_zero _
      map_add' := fun f g => by funext w; exact map_add _ _ _ }
  have h := distributedAssign_map M ranks rmesh (fun r => chi0tPoint L g r) r
  have h2 : (fun r => chi0tPoint L (fun t r => rotG S (g t r)) r) = fun r => M (chi0tPoint L g r) := by
    funext r t
    exact chi0tPoint_rot L g r t
  unfold chi0tr
  rw [h2, h]
  rfl

/-- C104: the static susceptibility by the trapezoidal rule. -/
theorem C104_bubble_static (ranks : ℕ) (beta : ℂ) (L : ℕ) (rmesh : List (Lat n)) (g : ℕ → Lat n → o → o → ℂ)
    (r : Lat n) :
    chi0W0r ranks beta L rmesh (fun t r => rotG S (g t r)) r = rotChi S (chi0W0r ranks beta L rmesh g r) := by
  have h := distributedAssign_map (rot4L (cj S) S (cj S) S).toAddMonoidHom ranks rmesh
    (fun r => trapz beta L (chi0tPoint L g r)) r
  have h2 : (fun r => trapz beta L (chi0tPoint L (fun t r => rotG S (g t r)) r))
      = fun r => (rot4L (cj S) S (cj S) S).toAddMonoidHom (trapz beta L (chi0tPoint L g r)) := by
    funext r
    change _ = rot4L (cj S) S (cj S) S _
    simp only [trapz, map_smul, map_sub, map_sum]
    have h3 : ∀ t, chi0tPoint L (fun t r => rotG S (g t r)) r t = rot4L (cj S) S (cj S) S (chi0tPoint L g r t) :=
      fun t => chi0tPoint_rot L g r t
    simp only [h3]
  unfold chi0W0r
  rw [h2, h]
  rfl

end Verif.Basis
