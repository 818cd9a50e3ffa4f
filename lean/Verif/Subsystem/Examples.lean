import Verif.Subsystem.Gw
import Verif.Gw.SolverFixed
import Verif.Parallel.Props

/-!
# C127: systems that meet the hypotheses
-/

set_option linter.unusedSectionVars false

noncomputable section

namespace Verif.Subsystem

open Verif.Parallel Verif.Fourier Verif.Bubble Verif.Gw Verif.Rpa Verif.Dyson

/-! ## Three orbitals: a dimer and a single level -/

/-- the dimer in the system -/
def dimer : Fin 2 → Fin 3 := ![0, 1]

theorem dimer_inj : Function.Injective dimer := by decide

/-- hopping in the dimer, and a level -/
def hop : Matrix (Fin 3) (Fin 3) ℚ := !![0, 1, 0; 1, 0, 0; 0, 0, 2]

theorem mem_dimer (i : Fin 3) : i ∈ Set.range dimer ↔ i ≠ 2 := by
  constructor
  · rintro ⟨j, rfl⟩
    revert j
    decide
  · intro h
    have : i = 0 ∨ i = 1 := by omega
    rcases this with rfl | rfl
    · exact ⟨0, rfl⟩
    · exact ⟨1, rfl⟩

theorem hop_apart : Apart (Set.range dimer) hop := by
  intro i j
  rw [mem_dimer, mem_dimer]
  fin_cases i <;> fin_cases j <;> simp [hop]

theorem hop_inv : ((5 : ℚ) • (1 : Matrix (Fin 3) (Fin 3) ℚ) - hop) * !![5/24, 1/24, 0; 1/24, 5/24, 0; 0, 0, 1/3] = 1 := by
  ext i j
  fin_cases i <;> fin_cases j <;> simp [hop, Matrix.mul_apply, Fin.sum_univ_three] <;> norm_num

theorem hop_det : IsUnit ((5 : ℚ) • (1 : Matrix (Fin 3) (Fin 3) ℚ) - hop).det :=
  (Matrix.isUnit_iff_isUnit_det _).1 (IsUnit.of_mul_eq_one _ hop_inv)

/-- the Dyson equation at energy five: the dimer alone gives the block of the inverse of the whole matrix -/
example : latticeDysonG0Xk 1 (0 : ℚ) (fun _ : ℤ => 5) [0] [()] (fun _ => part dimer hop) (0, ())
    = !![5/24, 1/24; 1/24, 5/24] := by
  have h := (C127_dyson (ι := dimer) dimer_inj 1 (0 : ℚ) (fun _ : ℤ => 5) [0] [()] (fun _ => hop) (fun _ _ => hop_apart)
    (.local fun _ => 0) (fun _ _ _ _ => apart_zero) 0 (fun _ _ _ _ => by rw [add_zero]; exact hop_det)
    (fun _ _ _ _ => by
      rw [add_zero, add_zero]
      change IsUnit ((5 : ℚ) • (1 : Matrix (Fin 3) (Fin 3) ℚ) - hop - 0).det
      rw [sub_zero]
      exact hop_det)).1
  rw [h]
  have hv : latticeDysonG0Xk 1 (0 : ℚ) (fun _ : ℤ => 5) [0] [()] (fun _ => hop) (0, ())
      = !![5/24, 1/24, 0; 1/24, 5/24, 0; 0, 0, 1/3] := by
    refine (C02_distributedAssign 1 Nat.one_pos _ (List.nodup_singleton _) _ _).trans ?_
    refine (if_pos (List.mem_singleton.2 rfl)).trans ?_
    change (((5 : ℚ) + 0) • (1 : Matrix (Fin 3) (Fin 3) ℚ) - hop)⁻¹ = _
    rw [add_zero]
    exact Matrix.inv_eq_right_inv hop_inv
  dsimp only
  rw [hv]
  ext i j
  fin_cases i <;> fin_cases j <;> rfl

/-! ## Two orbitals -/

/-- the first orbital -/
def one1 : Fin 1 → Fin 2 := ![0]

theorem one1_inj : Function.Injective one1 := Function.injective_of_subsingleton _

theorem mem_one1 (i : Fin 2) : i ∈ Set.range one1 ↔ i = 0 := by
  constructor
  · rintro ⟨j, rfl⟩
    fin_cases j
    rfl
  · rintro rfl
    exact ⟨0, rfl⟩

/-- interactions that act in each orbital -/
def onsite {F : Type*} [Field F] (u : Fin 2 → F) : Fin 2 → Fin 2 → Fin 2 → Fin 2 → F := fun a b c d => if a = b ∧ b = c ∧ c = d then u a else 0

theorem onsite_separate {F : Type*} [Field F] (u : Fin 2 → F) : Separate (Set.range one1) (onsite u) := by
  intro a b c d
  by_cases h : a = b ∧ b = c ∧ c = d
  · obtain ⟨rfl, rfl, rfl⟩ := h
    exact .inl ⟨Iff.rfl, Iff.rfl, Iff.rfl⟩
  · exact .inr (if_neg h)

/-- the susceptibility of two levels -/
def pairChi {F : Type*} [Field F] (x : Fin 2 → Fin 2 → F) : Fin 2 → Fin 2 → Fin 2 → Fin 2 → F := fun a b c d =>
  if a = d ∧ b = c then x a b else 0

theorem pairChi_linked {F : Type*} [Field F] (x : Fin 2 → Fin 2 → F) : Linked (Set.range one1) (pairChi x) := by
  intro a b c d
  by_cases h : a = d ∧ b = c
  · obtain ⟨rfl, rfl⟩ := h
    exact .inl ⟨Iff.rfl, Iff.rfl⟩
  · exact .inr (if_neg h)

/-- the product with the interactions is diagonal -/
theorem pairChi_onsite {F : Type*} [Field F] (x : Fin 2 → Fin 2 → F) (u : Fin 2 → F) :
    1 - pairMat (pairChi x) * pairMat (onsite u) = Matrix.diagonal fun p => 1 - if p.1 = p.2 then x p.1 p.1 * u p.1 else 0 := by
  ext ⟨a, b⟩ ⟨c, d⟩
  simp only [Matrix.sub_apply, Matrix.mul_apply, Fintype.sum_prod_type, Fin.sum_univ_two, pairMat, pairChi, onsite, Matrix.diagonal_apply,
    Matrix.one_apply]
  fin_cases a <;> fin_cases b <;> fin_cases c <;> fin_cases d <;> simp

/-- the random phase approximation for two uncoupled levels away from their instabilities -/
example (x : Fin 2 → Fin 2 → ℚ) (u : Fin 2 → ℚ) (h : ∀ a, 1 - x a a * u a ≠ 0) :
    solveRpaPH 1 [()] (fun _ => cut one1 (pairChi x)) (cut one1 (onsite u)) ()
      = cut one1 (solveRpaPH 1 [()] (fun _ => pairChi x) (onsite u) ()) := by
  refine congrFun (C127_rpa one1_inj 1 [()] (fun _ => pairChi x) (onsite u) (fun _ _ => pairChi_linked x) (onsite_separate u)
    (fun _ _ => ?_)).1 ()
  rw [pairChi_onsite, Matrix.det_diagonal, isUnit_iff_ne_zero, Finset.prod_ne_zero_iff]
  rintro ⟨a, b⟩ -
  dsimp only
  split_ifs
  · exact h a
  · norm_num

/-! ## Two atoms in the mean-field theory and in the GW approximation -/

/-- the second orbital -/
def two2 : Fin 1 → Fin 2 := ![1]

theorem whole12 : Whole one1 two2 := by
  constructor
  · rintro (a | a) (b | b) h
    · rw [Subsingleton.elim a b]
    · exact absurd h (by rw [Subsingleton.elim a 0, Subsingleton.elim b 0]; decide)
    · exact absurd h (by rw [Subsingleton.elim a 0, Subsingleton.elim b 0]; decide)
    · rw [Subsingleton.elim a b]
  · intro i
    fin_cases i
    · exact ⟨.inl 0, rfl⟩
    · exact ⟨.inr 0, rfl⟩

theorem diagonal_apart {F : Type*} [Field F] (S : Set (Fin 2)) (e : Fin 2 → F) : Apart S (Matrix.diagonal e) := by
  intro i j
  by_cases h : i = j
  · exact .inl (by rw [h])
  · exact .inr (Matrix.diagonal_apply_ne _ h)

/-- two atoms: a matrix solves the mean-field equation exactly when it is diagonal and its elements solve the equations of the atoms -/
example (beta mu : ℝ) (e u r : Fin 2 → ℝ) :
    Solution (onsite fun a => (u a : ℂ)) beta mu (fun _ : Unit => Matrix.diagonal fun a => (e a : ℂ)) (Matrix.diagonal fun a => (r a : ℂ)) ↔
      Apart (Set.range one1) (Matrix.diagonal fun a => (r a : ℂ)) ∧
      Solution (cut one1 (onsite fun a => (u a : ℂ))) beta mu (fun _ : Unit => part one1 (Matrix.diagonal fun a => (e a : ℂ)))
        (part one1 (Matrix.diagonal fun a => (r a : ℂ))) ∧
      Solution (cut two2 (onsite fun a => (u a : ℂ))) beta mu (fun _ : Unit => part two2 (Matrix.diagonal fun a => (e a : ℂ)))
        (part two2 (Matrix.diagonal fun a => (r a : ℂ))) := by
  refine C127_hf_solutions whole12 (onsite_separate _) beta mu (fun _ => diagonal_apart _ _) fun _ => ?_
  have hM : HartreeFock.meanField (onsite fun a => (u a : ℂ)) (Matrix.diagonal fun a => (r a : ℂ))
      = Matrix.diagonal fun a => ((-u a * r a : ℝ) : ℂ) := by
    ext b a
    simp only [HartreeFock.meanField, onsite, Fin.sum_univ_two, Matrix.diagonal_apply]
    fin_cases a <;> fin_cases b <;> simp
  rw [hM, Matrix.diagonal_add, Matrix.IsHermitian, Matrix.diagonal_conjTranspose]
  congr 1
  funext a
  simp

/-- transforms that keep the values -/
def plainPieces : Pieces where
  gToTau x t := x t
  wToTau x t := x t
  toFreq x w := x w.toNat
  tail0 x := x 0
  dens x := x 0
  ntau nw := 6 * nw + 1

/-- atoms at the energies `e` with the interactions `V` -/
def atoms (o : Type) [Fintype o] [DecidableEq o] (beta : ℝ) (e : Matrix o o ℂ) (V : Bubble.T4 o) : SolverParams (fun _ : Fin 1 => 1) o where
  ranks := 1
  lat := [0]
  freqs := [0]
  bfreqs := [0]
  nw := 2
  beta := beta
  L := 13
  val := fun m => matsubara .fermion beta m
  pieces := plainPieces
  boseFreq := fun x w => x w.toNat
  e := fun _ => e
  V := fun _ => V
  nFix := 0
  bracket := (0, 1)
  brentq := fun _ _ _ => .error ""

theorem atoms_part (beta : ℝ) (e u : Fin 2 → ℝ) :
    PartGw one1 (atoms (Fin 2) beta (Matrix.diagonal fun a => (e a : ℂ)) (onsite fun a => (u a : ℂ)))
      (atoms (Fin 1) beta (part one1 (Matrix.diagonal fun a => (e a : ℂ))) (cut one1 (onsite fun a => (u a : ℂ)))) where
  inj := one1_inj
  ranks := rfl
  lat := rfl
  freqs := rfl
  bfreqs := rfl
  nw := rfl
  L := rfl
  beta := rfl
  val := rfl
  pieces := rfl
  boseFreq := rfl
  e := rfl
  V := rfl
  nFix := rfl
  apart := fun _ => diagonal_apart _ _
  separate := fun _ => onsite_separate _
  gToTau := fun _ => rfl
  wToTau := fun _ => rfl
  toFreq := fun _ => rfl
  dens := rfl
  bose := fun _ => rfl

theorem atoms_good (o : Type) [Fintype o] [DecidableEq o] (beta : ℝ) (e : Matrix o o ℂ) (V : Bubble.T4 o) : GoodMeshes (atoms o beta e V) where
  ranks := Nat.one_pos
  lat := ⟨List.nodup_singleton _, fun k => by
    rw [show k = 0 from Subsingleton.elim _ _]; exact List.mem_singleton.2 rfl⟩
  freqs := List.nodup_singleton _
  bfreqs := List.nodup_singleton _

/-- a Green's function with the values `r` at the lowest frequency -/
def start (r : Fin 2 → ℝ) : G (fun _ : Fin 1 => 1) (Fin 2) := fun w _ a b => if w = 0 ∧ a = b then (r a : ℂ) else 0

theorem start_apart (r : Fin 2 → ℝ) (w : ℤ) (k) : Apart (Set.range one1) (Matrix.of (start r w k)) := by
  intro a b
  by_cases h : a = b
  · exact .inl (by rw [h])
  · exact .inr (if_neg fun x => h x.2)

theorem atoms_regular (beta : ℝ) (hb : 0 < beta) (e u r : Fin 2 → ℝ) (mu : ℝ) (t)
    (ht : (atoms (Fin 2) beta (Matrix.diagonal fun a => (e a : ℂ)) (onsite fun a => (u a : ℂ))).sweep hartreeOnly mu (start r) = .ok t) :
    Regular (atoms (Fin 2) beta (Matrix.diagonal fun a => (e a : ℂ)) (onsite fun a => (u a : ℂ))) hartreeOnly t where
  screen := by
    have hs := sweep_spec (atoms_good _ _ _ _) hartreeOnly mu (start r) t ht
    intro w hw k _
    have hP : t.P w k = 0 := by
      funext a b c d
      rw [hs.pol (by change 2 ≠ 1; decide)]
      obtain rfl := List.mem_singleton.1 hw
      have h0 : ∀ x : L1, kToR (fun _ : L1 => (0 : ℂ)) x = 0 := fun x => by simp [kToR, fftw]
      have h1 : rToK (fun _ : L1 => (0 : ℂ)) k = 0 := by simp [rToK, fftw]
      simp [polSpec, gTimeSpace, start, atoms, plainPieces, h0, h1]
    rw [hP]
    have : pairMat (screening hartreeOnly.spinless (0 : Bubble.T4 (Fin 2))) = 0 := rfl
    rw [this, Matrix.zero_mul, sub_zero, Matrix.det_one]
    exact isUnit_one
  dyson := by
    have hs := sweep_spec (atoms_good _ _ _ _) hartreeOnly mu (start r) t ht
    intro w hw k _
    have hS : Matrix.of (t.sigma w k) = Matrix.diagonal fun a => ((u a * r a : ℝ) : ℂ) := by
      ext a b
      have : (Fintype.card (Lat fun _ : Fin 1 => 1) : ℂ) = 1 := by rw [card_L1]; exact Nat.cast_one
      rw [Matrix.of_apply, hs.sigma]
      simp only [hartreeSpec, rhoSpec, this]
      rw [Fin.sum_univ_two, Fin.sum_univ_two, Fin.sum_univ_two, Fintype.sum_unique, Fintype.sum_unique, Fintype.sum_unique,
        Fintype.sum_unique]
      simp only [Matrix.diagonal_apply, atoms, plainPieces, start, onsite, hartreeOnly]
      fin_cases a <;> fin_cases b <;> simp
    rw [hS]
    have hd : ((matsubara .fermion beta w + (t.mu : ℂ)) • (1 : Matrix (Fin 2) (Fin 2) ℂ) - Matrix.diagonal (fun a => (e a : ℂ))
        - Matrix.diagonal fun a => ((u a * r a : ℝ) : ℂ))
        = Matrix.diagonal fun a => matsubara .fermion beta w + ((t.mu - e a - u a * r a : ℝ) : ℂ) := by
      ext a b
      by_cases h : a = b
      · subst h
        simp
        ring
      · simp [h]
    change IsUnit ((matsubara .fermion beta w + (t.mu : ℂ)) • (1 : Matrix (Fin 2) (Fin 2) ℂ) - Matrix.diagonal (fun a => (e a : ℂ))
        - Matrix.diagonal fun a => ((u a * r a : ℝ) : ℂ)).det
    rw [hd, Matrix.det_diagonal, isUnit_iff_ne_zero, Finset.prod_ne_zero_iff]
    intro a _ h
    obtain rfl := List.mem_singleton.1 hw
    have him := congrArg Complex.im h
    rw [Complex.add_im, Complex.ofReal_im, add_zero, Complex.zero_im] at him
    have hm : matsubara .fermion beta 0 = Complex.I * ((Real.pi / beta : ℝ) : ℂ) := by
      unfold matsubara; push_cast; simp
    rw [hm, Complex.I_mul_im, Complex.ofReal_re] at him
    exact (div_pos Real.pi_pos hb).ne' him

/-- a pass of the GW solver for two atoms, and for the first one alone -/
example (beta : ℝ) (hb : 0 < beta) (e u r : Fin 2 → ℝ) (mu : ℝ) :
    ∃ t, (atoms (Fin 2) beta (Matrix.diagonal fun a => (e a : ℂ)) (onsite fun a => (u a : ℂ))).sweep hartreeOnly mu (start r) = .ok t ∧
      (atoms (Fin 1) beta (part one1 (Matrix.diagonal fun a => (e a : ℂ))) (cut one1 (onsite fun a => (u a : ℂ)))).sweep hartreeOnly t.mu
        (partG one1 (start r)) = .ok (partSweep one1 t) := by
  have hex : ∃ t, (atoms (Fin 2) beta (Matrix.diagonal fun a => (e a : ℂ)) (onsite fun a => (u a : ℂ))).sweep hartreeOnly mu (start r)
      = .ok t := by
    unfold SolverParams.sweep SolverParams.dyson
    dsimp only
    have h0 : (atoms (Fin 2) beta (Matrix.diagonal fun a => (e a : ℂ)) (onsite fun a => (u a : ℂ))).nFix = 0 := rfl
    rw [if_pos h0]
    exact ⟨_, rfl⟩
  obtain ⟨t, ht⟩ := hex
  exact ⟨t, ht, (C127_gw_sweep (atoms_part beta e u) hartreeOnly mu (start_apart r) ht (atoms_regular beta hb e u r mu t ht)).1⟩

end Verif.Subsystem
