import Verif.PointGroup.Gw
import Verif.PointGroup.Hf
import Verif.PointGroup.Pairing
import Verif.HartreeFock.Hartree

/-!
# C117: lattice symmetries, Bethe-Salpeter equation and examples
-/

noncomputable section

namespace Verif.PointGroup

open Complex Verif.Fourier Verif.Bubble Verif.Parallel Verif.Basis Verif.Gw Matrix

set_option linter.unusedSectionVars false

section bse

variable {d : ℕ} {n : Fin d → ℕ} [∀ i, NeZero (n i)] {o : Type*} [Fintype o] [DecidableEq o] {ν : Type*} [Fintype ν] [DecidableEq ν]
  {W : Type*} [DecidableEq W] {P : PointOp n} {S : Matrix o o ℂ}

/-- C117: the lattice susceptibility from a symmetric bubble and an impurity vertex invariant under the orbital part is
symmetric, with all fermionic frequencies and summed. -/
theorem C117_bse (hS : Unitary S) {ranks : ℕ} (hr : 0 < ranks) (beta : ℂ) {lat : List (Lat n)} (hc : Complete lat) {wmesh : List W}
    (hw : wmesh.Nodup) {chi0 : W → ν → Lat n → Bubble.T4 o} (h0 : ∀ w nu, SymChi P S (chi0 w nu)) {gamma : W → Bse.T6 ν o ℂ}
    (hgam : ∀ w, rot6 S (gamma w) = gamma w) (w : W) :
    (∀ k, Bse.chiqFromChi0qAndGamma chi0 gamma (P.k k) w = rot6 S (Bse.chiqFromChi0qAndGamma chi0 gamma k w)) ∧
    SymChi P S fun k => Bse.chiqSumNuFromChi0qAndGamma ranks beta (lat.product wmesh) chi0 gamma (k, w) := by
  have e0 : (fun w nu k => chi0 w nu (P.k k)) = fun w nu k => rotChi S (chi0 w nu k) :=
    funext fun w => funext fun nu => funext fun k => h0 w nu k
  have eg : gamma = fun w => rot6 S (gamma w) := funext fun w => (hgam w).symm
  constructor
  · intro k
    have h := (C104_bse hS ranks beta (lat.product wmesh) gamma gamma chi0 gamma k w).2.1
    rw [← e0, ← eg] at h
    exact h
  · intro k
    have h := (C104_bse hS ranks beta (lat.product wmesh) gamma gamma chi0 gamma k w).2.2
    rw [← e0, ← eg] at h
    refine Eq.trans ?_ h
    unfold Bse.chiqSumNuFromChi0qAndGamma
    have hnd : (lat.product wmesh).Nodup := hc.1.product hw
    have hm : ∀ k, (k, w) ∈ lat.product wmesh ↔ w ∈ wmesh := fun k =>
      (Dyson.mem_prodMesh (wmesh := lat) (kmesh := wmesh)).trans (and_iff_right (hc.2 k))
    dsimp only
    rw [C02_distributedAssign ranks hr _ hnd, C02_distributedAssign ranks hr _ hnd]
    simp only [hm]

end bse

/-! ## The Hartree solver: only the diagonal of the density matrix is kept -/

/-- an orbital part that permutes the orbitals and multiplies them with phases -/
def monomial {m : ℕ} (s : Equiv.Perm (Fin m)) (z : Fin m → ℂ) : Matrix (Fin m) (Fin m) ℂ := fun a b => if b = s a then z a else 0

theorem rotG_monomial {m : ℕ} (s : Equiv.Perm (Fin m)) (z : Fin m → ℂ) (X : Matrix (Fin m) (Fin m) ℂ) (a b : Fin m) :
    rotG (monomial s z) X a b = z a * (starRingEnd ℂ) (z b) * X (s a) (s b) := by
  have h : ∀ a b, cj (monomial s z) a b = if b = s a then (starRingEnd ℂ) (z a) else 0 := by
    intro a b
    change (starRingEnd ℂ) (if b = s a then z a else 0) = _
    split_ifs <;> simp
  simp only [rotG, rot2, h, monomial]
  rw [Finset.sum_eq_single (s a) (fun x _ hx => Finset.sum_eq_zero fun y _ => by rw [if_neg hx, zero_mul, zero_mul])
    (fun h => absurd (Finset.mem_univ _) h),
    Finset.sum_eq_single (s b) (fun y _ hy => by rw [if_neg hy, mul_zero, zero_mul]) (fun h => absurd (Finset.mem_univ _) h),
    if_pos rfl, if_pos rfl]

/-- the conversion of the Hartree solver keeps the symmetry -/
theorem symRound_diagonal {m : ℕ} {κ V : Type*} [Fintype κ] [Nonempty κ] [NeZero m] (p : HartreeFock.Params m κ V)
    (s : Equiv.Perm (Fin m)) {z : Fin m → ℂ} (hz : ∀ a, z a * (starRingEnd ℂ) (z a) = 1) :
    SymRound (monomial s z) (HartreeFock.hartree p) := by
  intro rho _ h
  have hd : ∀ a, rho (s a) (s a) = rho a a := by
    intro a
    have := congrFun (congrFun h a) a
    rw [rotG_monomial, hz, one_mul] at this
    exact this
  unfold SymVec
  ext a b
  rw [rotG_monomial]
  simp only [HartreeFock.hartree, Matrix.diagonal_apply]
  by_cases hab : a = b
  · subst hab
    simp only [if_true, hz, one_mul, hd]
  · rw [if_neg hab, if_neg (fun e => hab (s.injective e)), mul_zero]

/-! ## Examples -/

/-- quarter turn of a square lattice with four points along each direction -/
def quarter : PointOp (fun _ : Fin 2 => 4) := (reflection 0).comp (permutation (Equiv.swap 0 1))

theorem quarter_k (k : Lat fun _ : Fin 2 => 4) : quarter.k k = ![-k 1, k 0] := by
  funext i
  fin_cases i
  · change (quarter.k k) 0 = -k 1
    have : k ((Equiv.swap (0 : Fin 2) 1) 0) = k 1 := rfl
    simpa [quarter, PointOp.comp, reflection, permutation] using this
  · change (quarter.k k) 1 = k 0
    have : k ((Equiv.swap (0 : Fin 2) 1) 1) = k 0 := rfl
    simpa [quarter, PointOp.comp, reflection, permutation] using this

/-- the quarter turn of two orbitals `x` and `y` -/
def turn : Matrix (Fin 2) (Fin 2) ℂ := !![0, -1; 1, 0]

theorem turn_unitary : Unitary turn := by
  unfold Unitary turn
  ext i j
  fin_cases i <;> fin_cases j <;> simp [Matrix.mul_apply, Fin.sum_univ_two]

/-- `cos` on four points -/
def cos4 (x : ZMod 4) : ℂ := if x = 0 then 1 else if x = 2 then -1 else 0

theorem cos4_zero : cos4 0 = 1 := if_pos rfl

theorem cos4_one : cos4 1 = 0 := by
  unfold cos4
  rw [if_neg (by decide), if_neg (by decide)]

theorem cos4_neg (x : ZMod 4) : cos4 (-x) = cos4 x := by
  unfold cos4
  have h1 : (-x = 0) = (x = 0) := by rw [neg_eq_zero]
  have h2 : (-x = 2) = (x = 2) := by
    revert x
    decide
  simp only [h1, h2]

/-- two orbitals on the square lattice, each hopping along its own direction -/
def bandsXY (k : Lat fun _ : Fin 2 => 4) : Matrix (Fin 2) (Fin 2) ℂ := !![cos4 (k 0), 0; 0, cos4 (k 1)]

theorem bandsXY_sym : SymG quarter turn bandsXY := by
  intro k
  rw [quarter_k]
  change bandsXY _ = _
  have := rotG_eq turn (bandsXY k)
  rw [this]
  ext i j
  fin_cases i <;> fin_cases j <;>
    simp [bandsXY, turn, Matrix.mul_apply, Fin.sum_univ_two, cos4_neg]

/-- an interaction of the densities that depends on the momentum -/
def densityV (q : Lat fun _ : Fin 2 => 4) : Bubble.T4 (Fin 2) := fun a b c e =>
  if a = b ∧ c = e then 3 + cos4 (q 0) + cos4 (q 1) else 0

theorem densityV_sym : SymV quarter turn densityV := by
  intro q
  rw [quarter_k]
  funext a b c e
  fin_cases a <;> fin_cases b <;> fin_cases c <;> fin_cases e <;>
    simp [densityV, rotV, rot4, turn, cj, Fin.sum_univ_two, cos4_neg, add_right_comm]

/-- a GW calculation with this symmetry meets the hypotheses of `C117_gw` -/
example : ∃ p : SolverParams (fun _ : Fin 2 => 4) (Fin 2), GoodMeshes p ∧ LinearPieces p ∧ SymParams quarter turn p ∧
    p.e ![1, 0] ≠ p.e ![0, 1] ∧ p.V 0 ≠ p.V ![1, 0] := by
  refine ⟨{
    ranks := 2, lat := (Finset.univ : Finset (Lat fun _ : Fin 2 => 4)).toList, freqs := [-1, 0], bfreqs := [-1, 0, 1], nw := 1,
    beta := 1, L := 8, val := Fourier.matsubara .fermion 1,
    pieces := { gToTau := fun x t => x 0 * t + x (-1), wToTau := fun x t => x 0 * t, toFreq := fun x w => x 0 + w * x 1,
                tail0 := fun _ => 0, dens := fun x => x 0 + x (-1), ntau := fun N => 6 * N + 1 }, boseFreq := fun x w => x 0 + w * x 1,
    e := bandsXY, V := densityV, nFix := 0, bracket := (0, 1), brentq := fun _ _ _ => .ok 0 },
    ⟨by norm_num, ⟨Finset.nodup_toList _, fun k => by simp⟩, by simp, by simp⟩, ?_, ⟨bandsXY_sym, densityV_sym⟩, ?_, ?_⟩
  · constructor <;> constructor <;> intros <;> (try funext) <;> simp <;> ring
  · intro h
    have := congrFun (congrFun h 0) 0
    simp [bandsXY, cos4_zero, cos4_one] at this
  · intro h
    have := congrFun (congrFun (congrFun (congrFun h 0) 0) 0) 0
    simp [densityV, cos4_zero, cos4_one] at this

/-- a d wave gap changes sign under the quarter turn, so every product of it does (`C117_representation` with `c = -1`) -/
example : ∀ (w : ℤ) k, (fun (_ : ℤ) (k : Lat fun _ : Fin 2 => 4) (_ _ : Unit) => cos4 (k 0) - cos4 (k 1)) w (quarter.k k)
    = (-1 : ℂ) • rotGap (1 : Matrix Unit Unit ℂ) ((fun (_ : ℤ) (k : Lat fun _ : Fin 2 => 4) (_ _ : Unit) => cos4 (k 0) - cos4 (k 1)) w k) := by
  intro w k
  rw [quarter_k]
  funext a b
  simp [rotGap, rot2, cos4_neg]

theorem turn_monomial : turn = monomial (Equiv.swap 0 1) ![-1, 1] := by
  ext i j
  fin_cases i <;> fin_cases j <;> simp [turn, monomial]

theorem bandsXY_hermitian (k : Lat fun _ : Fin 2 => 4) : (bandsXY k).IsHermitian := by
  have h : ∀ x, (starRingEnd ℂ) (cos4 x) = cos4 x := by
    intro x
    unfold cos4
    split_ifs <;> simp
  ext i j
  fin_cases i <;> fin_cases j <;> simp [bandsXY, h]

/-- a Hartree problem with this symmetry meets all hypotheses of `C117_hf`: the orbitals are exchanged by a quarter turn -/
example : ∃ p : HartreeFock.Params 2 (Lat fun _ : Fin 2 => 4) (Fin 2 → ℝ), SymHf quarter.k.toEquiv turn p ∧ Lindhard.EigSpec p.eig ∧
    SymRound turn p ∧ (∀ v k, (p.ek k + HartreeFock.meanField p.U (p.vec2mat v)).IsHermitian) ∧
    (∃ L : (Fin 2 → ℝ) →ₗ[ℝ] Matrix (Fin 2) (Fin 2) ℂ, p.vec2mat = L) ∧ p.ek ![1, 0] ≠ p.ek ![0, 1] ∧ p.U 0 0 1 1 ≠ 0 := by
  obtain ⟨eig, hE⟩ := Lindhard.exists_eigSpec (o := Fin 2)
  let p0 : HartreeFock.Params 2 (Lat fun _ : Fin 2 => 4) (Fin 2 → ℝ) := {
    beta := 1, muMin := none, muMax := none, ek := bandsXY, U := densityV 0, mat2vec := fun _ _ => 0, vec2mat := fun _ => 0,
    eigv := eig, eig := eig, brentq := fun _ _ _ => .ok 0 }
  refine ⟨HartreeFock.hartree p0, ⟨turn_unitary, bandsXY_sym, ?_⟩, hE, ?_, ?_, ?_, ?_, ?_⟩
  · funext a b c e
    change rotChi turn (densityV 0) a b c e = densityV 0 a b c e
    fin_cases a <;> fin_cases b <;> fin_cases c <;> fin_cases e <;>
      simp [densityV, rotChi, rot4, turn, cj, Fin.sum_univ_two]
  · rw [turn_monomial]
    exact symRound_diagonal p0 _ (by intro a; fin_cases a <;> simp)
  · intro v k
    refine (bandsXY_hermitian k).add ?_
    ext i j
    fin_cases i <;> fin_cases j <;>
      simp [HartreeFock.meanField, HartreeFock.hartree, p0, densityV, Fin.sum_univ_two, cos4_zero]
  · exact ⟨{ toFun := fun v => diagonal fun i => (v i : ℂ)
             map_add' := fun x y => by ext i j; by_cases h : i = j <;> simp [h]
             map_smul' := fun c x => by ext i j; by_cases h : i = j <;> simp [h] }, rfl⟩
  · intro h
    have := congrFun (congrFun h 0) 0
    simp [HartreeFock.hartree, p0, bandsXY, cos4_zero, cos4_one] at this
  · simp only [HartreeFock.hartree, p0, densityV, and_self, if_true, Pi.zero_apply, cos4_zero]
    norm_num

end Verif.PointGroup
