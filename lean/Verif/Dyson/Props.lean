import Verif.Dyson.Model
import Verif.Parallel.Props
import Mathlib.LinearAlgebra.Matrix.ConjTranspose
import Mathlib.LinearAlgebra.Matrix.Hermitian
import Mathlib.Algebra.Star.SelfAdjoint
import Mathlib.Data.Complex.Basic
import Mathlib.Tactic.NormNum
import Mathlib.LinearAlgebra.Matrix.Notation
import Mathlib.Tactic.Module

/-!
# C04, C05, C74: properties of the lattice Dyson equation
-/

namespace Verif.Dyson

open Verif.Parallel

variable {F : Type*} [Field F] {n : Type*} [Fintype n] [DecidableEq n]
variable {W K : Type*} [DecidableEq W] [DecidableEq K]

set_option linter.unusedSectionVars false

theorem mem_prodMesh {wmesh : List W} {kmesh : List K} {w : W} {k : K} :
    (w, k) ∈ prodMesh wmesh kmesh ↔ w ∈ wmesh ∧ k ∈ kmesh := by
  simp [prodMesh]

theorem prodMesh_nodup {wmesh : List W} {kmesh : List K} (hw : wmesh.Nodup) (hk : kmesh.Nodup) :
    (prodMesh wmesh kmesh).Nodup := by
  have : prodMesh wmesh kmesh = wmesh ×ˢ kmesh := rfl
  rw [this]
  exact hw.product hk

/-- What the user expects at one mesh point: a two sided inverse of
`(z + μ) 1 - ε - Σ`. -/
def SolvesDyson (z mu : F) (eps sig g : Matrix n n F) : Prop :=
  ((z + mu) • (1 : Matrix n n F) - eps - sig) * g = 1 ∧
    g * ((z + mu) • (1 : Matrix n n F) - eps - sig) = 1

/-- What a self energy argument means at a mesh point: a local one has the same value at every momentum, a lattice one
its own. -/
inductive SelfEnergyAt : Sigma W K n F → W → K → Matrix n n F → Prop
  | loc (s : W → Matrix n n F) (w : W) (k : K) : SelfEnergyAt (.local s) w k (s w)
  | lat (s : W → K → Matrix n n F) (w : W) (k : K) : SelfEnergyAt (.lattice s) w k (s w k)

theorem SelfEnergyAt.term_eq {sigma : Sigma W K n F} {w : W} {k : K} {S : Matrix n n F}
    (h : SelfEnergyAt sigma w k S) : sigma.term w k = S := by
  cases h <;> rfl

theorem selfEnergyAt_term (sigma : Sigma W K n F) (w : W) (k : K) : SelfEnergyAt sigma w k (sigma.term w k) := by
  cases sigma
  · exact .loc _ w k
  · exact .lat _ w k

/-- C04: the interacting lattice Green's function solves the Dyson equation at every mesh point
where the matrix is invertible, for every number of ranks. -/
theorem C04_latticeDyson_solves (ranks : ℕ) (hr : 0 < ranks) (mu : F) (val : W → F)
    (wmesh : List W) (kmesh : List K) (hw : wmesh.Nodup) (hk : kmesh.Nodup)
    (e : K → Matrix n n F) (sigma : Sigma W K n F) (idelta : F) (w : W) (k : K)
    (hwm : w ∈ wmesh) (hkm : k ∈ kmesh) (S : Matrix n n F) (hS : SelfEnergyAt sigma w k S)
    (hdet : IsUnit ((val w + idelta + mu) • (1 : Matrix n n F) - e k - S).det) :
    SolvesDyson (val w + idelta) mu (e k) S
      (latticeDysonGXk ranks mu val wmesh kmesh e sigma idelta (w, k)) := by
  have : latticeDysonGXk ranks mu val wmesh kmesh e sigma idelta (w, k)
      = ((val w + idelta + mu) • (1 : Matrix n n F) - e k - S)⁻¹ := by
    rw [latticeDysonGXk, C02_distributedAssign ranks hr _ (prodMesh_nodup hw hk),
      if_pos (mem_prodMesh.2 ⟨hwm, hkm⟩), hS.term_eq]
  rw [this]
  exact ⟨Matrix.mul_nonsing_inv _ hdet, Matrix.nonsing_inv_mul _ hdet⟩

/-- C04: the solution is unique. -/
theorem C04_solution_unique (z mu : F) (eps sig g g' : Matrix n n F)
    (h : SolvesDyson z mu eps sig g) (h' : SolvesDyson z mu eps sig g') : g = g' := by
  calc g = g * 1 := (Matrix.mul_one g).symm
    _ = g * (((z + mu) • (1 : Matrix n n F) - eps - sig) * g') := by rw [h'.1]
    _ = g' := by rw [← Matrix.mul_assoc, h.2, Matrix.one_mul]

/-- C04: equivalent form `g = g0 + g0 Σ g` with the non-interacting lattice Green's function
returned by `lattice_dyson_g0_wk`. -/
theorem C04_dyson_series_form (ranks ranks' : ℕ) (hr : 0 < ranks) (hr' : 0 < ranks') (mu : F)
    (val : W → F) (wmesh : List W) (kmesh : List K) (hw : wmesh.Nodup) (hk : kmesh.Nodup)
    (e : K → Matrix n n F) (sigma : Sigma W K n F) (w : W) (k : K)
    (hwm : w ∈ wmesh) (hkm : k ∈ kmesh) (S : Matrix n n F) (hS : SelfEnergyAt sigma w k S)
    (hdet0 : IsUnit ((val w + mu) • (1 : Matrix n n F) - e k).det)
    (hdet : IsUnit ((val w + mu) • (1 : Matrix n n F) - e k - S).det) :
    let g0 := latticeDysonG0Xk ranks mu val wmesh kmesh e (w, k)
    let g := latticeDysonGXk ranks' mu val wmesh kmesh e sigma 0 (w, k)
    g = g0 + g0 * S * g := by
  intro g0 g
  have hg0 : g0 = ((val w + mu) • (1 : Matrix n n F) - e k)⁻¹ := by
    simp only [g0, latticeDysonG0Xk]
    rw [C02_distributedAssign ranks hr _ (prodMesh_nodup hw hk), if_pos (mem_prodMesh.2 ⟨hwm, hkm⟩)]
  have hg : g = ((val w + mu) • (1 : Matrix n n F) - e k - S)⁻¹ := by
    simp only [g, latticeDysonGXk]
    rw [C02_distributedAssign ranks' hr' _ (prodMesh_nodup hw hk),
      if_pos (mem_prodMesh.2 ⟨hwm, hkm⟩), add_zero, hS.term_eq]
  set A := (val w + mu) • (1 : Matrix n n F) - e k with hA
  have h1 : (A - S) * g = 1 := by rw [hg]; exact Matrix.mul_nonsing_inv _ hdet
  have h0 : g0 * A = 1 := by rw [hg0]; exact Matrix.nonsing_inv_mul _ hdet0
  have h2 : A * g = 1 + S * g := by
    rw [Matrix.sub_mul, sub_eq_iff_eq_add] at h1
    exact h1
  calc g = g0 * A * g := by rw [h0, Matrix.one_mul]
    _ = g0 * (A * g) := Matrix.mul_assoc _ _ _
    _ = g0 * (1 + S * g) := by rw [h2]
    _ = g0 + g0 * S * g := by rw [Matrix.mul_add, Matrix.mul_one, Matrix.mul_assoc]

/-- C04: zero self energy gives the non-interacting function (Matsubara and real frequency
versions), on all points, also off the mesh. -/
theorem C04_zero_sigma (ranks : ℕ) (mu : F) (val : W → F) (wmesh : List W) (kmesh : List K)
    (e : K → Matrix n n F) (idelta : F) :
    latticeDysonGXk ranks mu val wmesh kmesh e (.local fun _ => 0)
      = latticeDysonG0Xk ranks mu val wmesh kmesh e ∧
    latticeDysonGXk ranks mu val wmesh kmesh e (.lattice fun _ _ => 0) idelta
      = latticeDysonG0fk ranks mu val wmesh kmesh e idelta := by
  constructor
  · simp [latticeDysonGXk, latticeDysonG0Xk, Sigma.term]
  · simp [latticeDysonGXk, latticeDysonG0fk, Sigma.term]

/-- C04: a local self energy and the same self energy spread over momentum give the same result. -/
theorem C04_overloads_agree (ranks : ℕ) (mu : F) (val : W → F) (wmesh : List W) (kmesh : List K)
    (e : K → Matrix n n F) (s : W → Matrix n n F) (idelta : F) :
    latticeDysonGXk ranks mu val wmesh kmesh e (.local s) idelta
      = latticeDysonGXk ranks mu val wmesh kmesh e (.lattice fun w _ => s w) idelta := rfl

/-- C04: a chemical potential shift is the same as a shift of the dispersion or the self energy. -/
theorem C04_mu_shift (ranks : ℕ) (mu shift : F) (val : W → F) (wmesh : List W) (kmesh : List K)
    (e : K → Matrix n n F) (sigma : Sigma W K n F) (idelta : F) :
    latticeDysonGXk ranks (mu + shift) val wmesh kmesh e sigma idelta
      = latticeDysonGXk ranks mu val wmesh kmesh (fun k => e k - shift • 1) sigma idelta := by
  unfold latticeDysonGXk
  congr 1
  funext p
  congr 1
  module

/-- A two orbital instance in which the hypotheses of `C04_latticeDyson_solves` hold. -/
example : IsUnit (((2 : ℚ) + 0 + 1) • (1 : Matrix (Fin 2) (Fin 2) ℚ) - !![1, 1; 1, 0]
    - !![0, 0; 0, 1]).det ∧ SelfEnergyAt (Sigma.local (K := ℕ) (fun _ : ℕ => !![(0 : ℚ), 0; 0, 1])) 0 0 !![0, 0; 0, 1] := by
  refine ⟨?_, .loc _ 0 0⟩
  rw [Matrix.det_fin_two]
  simp
  norm_num

/-! ## C05 -/

/-- C05: the local Green's function equals the mean over the Brillouin zone of the lattice Green's
function, for any numbers of ranks. -/
theorem C05_local_is_average (ranks ranks' : ℕ) (hr : 0 < ranks) (hr' : 0 < ranks') (mu : F)
    (val : W → F) (wmesh : List W) (kmesh : List K) (hw : wmesh.Nodup) (hk : kmesh.Nodup)
    (e : K → Matrix n n F) (sigma : Sigma W K n F) (idelta : F) (w : W) (hwm : w ∈ wmesh) :
    latticeDysonGX ranks mu val wmesh kmesh e sigma idelta w
      = ((kmesh.length : F))⁻¹ • (kmesh.map fun k =>
          latticeDysonGXk ranks' mu val wmesh kmesh e sigma idelta (w, k)).sum := by
  unfold latticeDysonGX
  rw [C02_distributedAccumulate ranks hr]
  congr 2
  apply List.map_congr_left
  intro k hkm
  rw [latticeDysonGXk, C02_distributedAssign ranks' hr' _ (prodMesh_nodup hw hk),
    if_pos (mem_prodMesh.2 ⟨hwm, hkm⟩), if_pos hwm]

/-- C05: for a momentum independent dispersion the average is the single impurity value. -/
theorem C05_flat_band (ranks : ℕ) (hr : 0 < ranks) (mu : F) (val : W → F) (wmesh : List W)
    (kmesh : List K) (e0 : Matrix n n F) (s : W → Matrix n n F) (idelta : F)
    (hne : (kmesh.length : F) ≠ 0) (w : W) (hwm : w ∈ wmesh) :
    latticeDysonGX ranks mu val wmesh kmesh (fun _ => e0) (.local s) idelta w
      = ((val w + idelta + mu) • (1 : Matrix n n F) - e0 - s w)⁻¹ := by
  unfold latticeDysonGX
  rw [C02_distributedAccumulate ranks hr]
  simp only [hwm, if_true, Sigma.term, List.map_const', List.sum_replicate]
  rw [← Nat.cast_smul_eq_nsmul F, smul_smul, inv_mul_cancel₀ hne, one_smul]

example : ((([0, 1, 2] : List ℕ).length : ℕ) : ℚ) ≠ 0 := by norm_num

/-- C05: the Matsubara versions do not pass a broadening (`/repo/c++/triqs_tprf/lattice/gf.cpp:194-200`): both functions have the
denominators of the Dyson equation. -/
theorem C05_matsubara (ranks ranks' : ℕ) (hr : 0 < ranks) (hr' : 0 < ranks') (mu : F)
    (val : W → F) (wmesh : List W) (kmesh : List K) (hw : wmesh.Nodup) (hk : kmesh.Nodup)
    (e : K → Matrix n n F) (sigma : Sigma W K n F) (w : W) (hwm : w ∈ wmesh) :
    (latticeDysonGX ranks mu val wmesh kmesh e sigma) w
      = ((kmesh.length : F))⁻¹ • (kmesh.map fun k => (latticeDysonGXk ranks' mu val wmesh kmesh e sigma) (w, k)).sum ∧
    ∀ k ∈ kmesh, ∀ S, SelfEnergyAt sigma w k S →
      (latticeDysonGXk ranks' mu val wmesh kmesh e sigma) (w, k) = ((val w + mu) • (1 : Matrix n n F) - e k - S)⁻¹ := by
  refine ⟨C05_local_is_average ranks ranks' hr hr' mu val wmesh kmesh hw hk e sigma 0 w hwm, fun k hkm S hS => ?_⟩
  rw [latticeDysonGXk, C02_distributedAssign ranks' hr' _ (prodMesh_nodup hw hk), if_pos (mem_prodMesh.2 ⟨hwm, hkm⟩),
    hS.term_eq, add_zero]

/-! ## C74: conjugation symmetry -/

/-- C74: for hermitian dispersion, real chemical potential and a self energy with
`Σ(-iω, k) = Σ(iω, k)†`, the lattice Green's function obeys `G(-iω, k) = G(iω, k)†`. `conj w` is the
mesh point of the conjugate frequency. -/
theorem C74_conjugation (ranks : ℕ) (hr : 0 < ranks) (mu : ℂ) (hmu : star mu = mu) (val : W → ℂ)
    (wmesh : List W) (kmesh : List K) (hw : wmesh.Nodup) (hk : kmesh.Nodup)
    (conj : W → W) (hmem : ∀ w ∈ wmesh, conj w ∈ wmesh) (hval : ∀ w, val (conj w) = star (val w))
    (e : K → Matrix n n ℂ) (he : ∀ k, (e k).IsHermitian) (sigma : Sigma W K n ℂ)
    (hs : ∀ w k S, SelfEnergyAt sigma w k S → SelfEnergyAt sigma (conj w) k S.conjTranspose)
    (w : W) (k : K) (hwm : w ∈ wmesh) (hkm : k ∈ kmesh) :
    latticeDysonGXk ranks mu val wmesh kmesh e sigma 0 (conj w, k)
      = (latticeDysonGXk ranks mu val wmesh kmesh e sigma 0 (w, k)).conjTranspose := by
  have key : ∀ w, w ∈ wmesh → latticeDysonGXk ranks mu val wmesh kmesh e sigma 0 (w, k)
      = ((val w + 0 + mu) • (1 : Matrix n n ℂ) - e k - sigma.term w k)⁻¹ := by
    intro w hwm
    rw [latticeDysonGXk, C02_distributedAssign ranks hr _ (prodMesh_nodup hw hk),
      if_pos (mem_prodMesh.2 ⟨hwm, hkm⟩)]
  rw [key _ (hmem w hwm), key _ hwm, Matrix.conjTranspose_nonsing_inv]
  congr 1
  rw [Matrix.conjTranspose_sub, Matrix.conjTranspose_sub, (he k).eq,
    (hs w k _ (selfEnergyAt_term sigma w k)).term_eq, hval,
    Matrix.conjTranspose_smul, Matrix.conjTranspose_one]
  simp [hmu]

/-- Matsubara frequencies `i(2n+1)`, `n ↦ -n-1`, satisfy the hypotheses on the mesh. -/
example : (∀ w ∈ ([-2, -1, 0, 1] : List ℤ), -w - 1 ∈ ([-2, -1, 0, 1] : List ℤ)) ∧
    ∀ w : ℤ, (fun m : ℤ => Complex.I * (2 * (m : ℂ) + 1)) (-w - 1)
      = star ((fun m : ℤ => Complex.I * (2 * (m : ℂ) + 1)) w) := by
  constructor
  · decide
  · intro w
    simp
    ring

end Verif.Dyson
