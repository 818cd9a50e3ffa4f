import Verif.Lindhard.Conserved

/-!
# C116: static screening of a density interaction, and the failure without time reversal symmetry
-/

noncomputable section

namespace Verif.Lindhard

open Complex Verif.Parallel Verif.Fourier Verif.Bubble Matrix

set_option linter.unusedSectionVars false

variable {d : ℕ} {n : Fin d → ℕ} [∀ i, NeZero (n i)] {o : Type*} [Fintype o] [DecidableEq o]

/-- interaction of the total density with itself, `v n n` -/
def densityInteraction (v : ℂ) : T4 o := fun a b c f => v * (if a = b then 1 else 0) * (if c = f then 1 else 0)

/-- the vector of the particle number in the space of pairs -/
def numberVec : o × o → ℂ := fun p => if p.1 = p.2 then 1 else 0

theorem pairMat_density (v : ℂ) : Rpa.pairMat (densityInteraction (o := o) v) = v • vecMulVec numberVec numberVec := by
  ext p q
  simp only [Rpa.pairMat, densityInteraction, Matrix.smul_apply, vecMulVec_apply, numberVec, smul_eq_mul]
  ring

theorem number_sum (Pi : T4 o) : numberVec ⬝ᵥ (Rpa.pairMat Pi *ᵥ numberVec) = ∑ a, ∑ c, Pi a a c c := by
  simp [dotProduct, Matrix.mulVec, Fintype.sum_prod_type, numberVec, Rpa.pairMat]

theorem density_triple (v w : ℂ) (Pi : T4 o) :
    Rpa.pairMat (densityInteraction v) * Rpa.pairMat Pi * Rpa.pairMat (densityInteraction w)
      = (v * w * ∑ a, ∑ c, Pi a a c c) • vecMulVec numberVec numberVec := by
  rw [pairMat_density, pairMat_density, Matrix.smul_mul, Matrix.smul_mul, Matrix.mul_smul, Matrix.mul_assoc, Matrix.mul_vecMulVec,
    Matrix.vecMulVec_mul_vecMulVec, number_sum, smul_smul, Matrix.vecMulVec_smul, smul_smul]

theorem det_density (v : ℂ) (Pi : T4 o) :
    (1 - Rpa.pairMat Pi * Rpa.pairMat (densityInteraction v)).det = 1 - v * ∑ a, ∑ c, Pi a a c c := by
  rw [pairMat_density, Matrix.mul_smul, Matrix.mul_vecMulVec, sub_eq_add_neg]
  have e : -(v • vecMulVec (Rpa.pairMat Pi *ᵥ numberVec) numberVec)
      = replicateCol Unit (-v • (Rpa.pairMat Pi *ᵥ numberVec)) * replicateRow Unit (numberVec (o := o)) := by
    ext p q
    simp [vecMulVec_apply, Matrix.mul_apply]
    ring
  rw [e, Matrix.det_one_add_replicateCol_mul_replicateRow, dotProduct_smul, number_sum, smul_eq_mul]
  ring

/-- C116: the interaction of the total density with itself is screened by the dielectric constant `1 - v Σ_ac Π(aacc)`. -/
theorem C116_dielectric (v : ℂ) (Pi : T4 o) (h : 1 - v * ∑ a, ∑ c, Pi a a c c ≠ 0) :
    Rpa.screenedBubblePoint Pi (densityInteraction v) = densityInteraction (v / (1 - v * ∑ a, ∑ c, Pi a a c c)) := by
  have hdet : IsUnit (1 - Rpa.pairMat Pi * Rpa.pairMat (densityInteraction v)).det := by
    rw [det_density]
    exact isUnit_iff_ne_zero.2 h
  refine Rpa.C17_unique Pi (densityInteraction v) _ _ hdet ?_ ?_
  · rw [Rpa.unswappedW_iff, Rpa.unswappedRpa_iff, Rpa.screenedBubble_push _ _ hdet]
    apply Rpa.rpa_eq_of_unit
    rwa [Rpa.isUnit_det_comm]
  · rw [Rpa.unswappedW_iff, Rpa.unswappedRpa_iff, density_triple, pairMat_density, pairMat_density, ← add_smul]
    congr 1
    field_simp
    ring

section ThomasFermi

variable {N : ℕ} {Om : Type*} [DecidableEq Om]

/-- C116: Thomas-Fermi screening. For the polarisation `-χ₀` and the interaction `v n n` at zero momentum the static screened
interaction is `v / (1 + v dn/dμ)`, with the number of particles per unit cell of the mean field solver. -/
theorem C116_thomas_fermi (ranks : ℕ) (hr : 0 < ranks) {eig : Eig (Fin N)} (hs : EigSpec eig) (tol beta mu : ℝ) (ht : 0 < tol)
    {kmesh : List (Lat n)} (hnd : kmesh.Nodup) (hall : ∀ k, k ∈ kmesh) {e : Lat n → Matrix (Fin N) (Fin N) ℂ}
    (he : ∀ k, (e k).IsHermitian) (mesh : List (Om × Lat n)) (hm : mesh.Nodup) (z : Om → ℂ) (V : Rpa.Bare Om (Lat n) (Fin N) ℂ)
    (w : Om) (hw : (w, 0) ∈ mesh) (hz : z w = 0) (v dn : ℂ) (hV : V.at w 0 = densityInteraction v)
    (hdn : HasDerivAt (fun mu' : ℝ => (densityAt eig beta e mu').trace) dn mu) (hne : 1 + v * dn ≠ 0) :
    ∃ res, Rpa.screenedBubble ranks mesh kmesh kmesh
        (fun p => (-1 : ℂ) • lindhard ranks eig tol beta mu kmesh e (z p.1) p.2) V = .ok res ∧
      res (w, 0) = densityInteraction (v / (1 + v * dn)) := by
  refine ⟨_, if_neg (by simp), ?_⟩
  rw [C02_distributedAssign ranks hr _ hm, if_pos hw, hV]
  dsimp only
  rw [hz]
  have h1 : HasDerivAt (fun mu' : ℝ => (densityAt eig beta e mu').trace)
      (∑ c, ∑ a, lindhard ranks eig tol beta mu kmesh e 0 0 a a c c) mu := by
    unfold Matrix.trace Matrix.diag
    exact HasDerivAt.fun_sum fun c _ => C116_compressibility ranks hr hs tol beta mu ht hnd hall he c c
  have h2 : ∑ a, ∑ c, ((-1 : ℂ) • lindhard ranks eig tol beta mu kmesh e 0 0) a a c c = -dn := by
    rw [hdn.unique h1, Finset.sum_comm]
    simp
  have h3 := C116_dielectric v ((-1 : ℂ) • lindhard ranks eig tol beta mu kmesh e 0 0) (by
    rw [h2]; simpa using hne)
  rw [h2] at h3
  refine h3.trans ?_
  congr 2
  ring

end ThomasFermi

/-! ## Without time reversal symmetry -/

/-- eigenvectors of a two-level system with complex hopping -/
def twistU : Matrix (Fin 2) (Fin 2) ℂ := !![3 / 5, 4 / 5 * I; 4 / 5 * I, 3 / 5]

/-- a two-level system with energies `1` and `-1` that is not symmetric under transposition -/
def twist : Matrix (Fin 2) (Fin 2) ℂ := !![-7 / 25, -24 / 25 * I; 24 / 25 * I, 7 / 25]

def twistEnergies : Fin 2 → ℝ := ![1, -1]

theorem twistU_conj : twistUᴴ = !![3 / 5, -(4 / 5 * I); -(4 / 5 * I), 3 / 5] := by
  ext i j
  fin_cases i <;> fin_cases j <;> simp [twistU]

theorem twist_diag : Diag (twist - ((0 : ℝ) : ℂ) • 1) (twistEnergies, twistU) := by
  have h1 : diagonal (fun i => ((twistEnergies, twistU).1 i : ℂ)) = !![1, 0; 0, -1] := by
    ext i j
    fin_cases i <;> fin_cases j <;> simp [twistEnergies]
  refine ⟨?_, ?_, ?_⟩
  · dsimp only
    rw [twistU_conj]
    ext i j
    fin_cases i <;> fin_cases j <;> simp [twistU, Matrix.mul_apply, Fin.sum_univ_two] <;> ring_nf <;> (try rw [I_sq]) <;> norm_num
  · dsimp only
    rw [twistU_conj]
    ext i j
    fin_cases i <;> fin_cases j <;> simp [twistU, Matrix.mul_apply, Fin.sum_univ_two] <;> ring_nf <;> (try rw [I_sq]) <;> norm_num
  · rw [h1]
    dsimp only
    rw [twistU_conj]
    ext i j
    fin_cases i <;> fin_cases j <;> simp [twist, twistU, Matrix.mul_apply, Fin.sum_univ_two] <;> ring_nf <;> (try rw [I_sq]) <;>
      norm_num

theorem twist_hermitian : twist.IsHermitian := by
  ext i j
  fin_cases i <;> fin_cases j <;> simp [twist] <;> ring

theorem twist_charge (g : ℝ → ℝ → ℂ) (hg : ∀ x, g x x = 0) :
    leftCharge twist (dbl (twistEnergies, twistU) (twistEnergies, twistU) g) 0 0
      = -(4032 / 15625) * (g 1 (-1) + g (-1) 1) := by
  have hI : I ^ 2 = -1 := I_sq
  have h4 : I ^ 4 = 1 := by rw [show I ^ 4 = (I ^ 2) ^ 2 by ring, I_sq]; norm_num
  simp only [leftCharge, dbl, twistU_conj]
  simp [twistU, twist, twistEnergies, Fin.sum_univ_two, hg]
  ring_nf
  simp only [hI, h4]
  ring

theorem twist_factor_ne (tol beta : ℝ) (m : ℤ) (hb : 0 < beta) (hnl : ¬ ‖matsubara .boson beta m‖ < tol) :
    totalFactor tol beta (matsubara .boson beta m) 1 (-1) + totalFactor tol beta (matsubara .boson beta m) (-1) 1 ≠ 0 := by
  set z := matsubara .boson beta m with hz
  have hb' : fermi (1 * beta) < fermi (-1 * beta) := by
    rw [C20_fermi, C20_fermi]
    have : Real.exp (-1 * beta) < Real.exp (1 * beta) := Real.exp_lt_exp.2 (by linarith)
    have := Real.exp_pos (-1 * beta)
    exact one_div_lt_one_div_of_lt (by linarith) (by linarith)
  have hzI : z = I * ((2 * m * Real.pi / beta : ℝ) : ℂ) := by
    rw [hz]
    simp only [matsubara]
    push_cast
    ring
  set y : ℝ := 2 * m * Real.pi / beta with hy
  have hn2 : z - 2 ≠ 0 := by
    intro h
    have := congrArg Complex.re h
    rw [hzI] at this
    simp at this
  have hp2 : z + 2 ≠ 0 := by
    intro h
    have := congrArg Complex.re h
    rw [hzI] at this
    simp at this
  have hsum : totalFactor tol beta z 1 (-1) + totalFactor tol beta z (-1) 1
      = ((fermi (1 * beta) - fermi (-1 * beta) : ℝ) : ℂ) * 4 / ((z - 2) * (z + 2)) := by
    unfold totalFactor
    rw [if_neg (fun h => hnl h.1), if_neg (fun h => hnl h.1)]
    push_cast
    rw [show z + (-1 - 1) = z - 2 by ring, show z + (1 - -1) = z + 2 by ring]
    field_simp
    ring
  rw [hsum]
  have hdn : ((fermi (1 * beta) - fermi (-1 * beta) : ℝ) : ℂ) ≠ 0 := by
    exact_mod_cast (sub_neg.2 hb').ne
  exact div_ne_zero (mul_ne_zero hdn (by norm_num)) (mul_ne_zero hn2 hp2)

theorem twist_lindhard (ranks : ℕ) (hr : 0 < ranks) {eig : Eig (Fin 2)} (hs : EigSpec eig) (tol beta : ℝ) (z : ℂ) :
    lindhard ranks eig tol beta 0 [0] (fun _ : Lat (fun _ : Fin 1 => 1) => twist) z 0
      = dbl (twistEnergies, twistU) (twistEnergies, twistU) (totalFactor tol beta z) := by
  have hall : ∀ k : Lat (fun _ : Fin 1 => 1), k ∈ [(0 : Lat (fun _ : Fin 1 => 1))] := by
    intro k
    simpa using Subsingleton.elim k 0
  rw [lindhard_eq ranks hr eig tol beta 0 [0] (by simp) hall]
  have h1 : ∀ k : Lat (fun _ : Fin 1 => 1), dbl (sys eig 0 (fun _ => twist) k) (sys eig 0 (fun _ => twist) (k + 0)) (totalFactor tol beta z)
      = dbl (twistEnergies, twistU) (twistEnergies, twistU) (totalFactor tol beta z) := fun k =>
    dbl_unique (sys_diag hs 0 (e := fun _ : Lat (fun _ : Fin 1 => 1) => twist) (fun _ => twist_hermitian) k) twist_diag
      (sys_diag hs 0 (e := fun _ : Lat (fun _ : Fin 1 => 1) => twist) (fun _ => twist_hermitian) (k + 0)) twist_diag _
  have hc : (Fintype.card (Lat (fun _ : Fin 1 => 1)) : ℂ) ≠ 0 := by
    exact_mod_cast Fintype.card_ne_zero
  simp only [h1, Finset.sum_const, Finset.card_univ]
  rw [← Nat.cast_smul_eq_nsmul ℂ, smul_smul, inv_mul_cancel₀ hc, one_smul]

/-- C116 violated: without time reversal symmetry the Lindhard bubble has a response of an operator that commutes with the
Hamiltonian, here of the Hamiltonian itself, at every nonzero Matsubara frequency. -/
theorem C116_no_response_violated : ∃ (e : Lat (fun _ : Fin 1 => 1) → Matrix (Fin 2) (Fin 2) ℂ) (X : Matrix (Fin 2) (Fin 2) ℂ),
    (∀ k, (e k).IsHermitian) ∧ Conserved e X ∧
    ∀ (ranks : ℕ) (eig : Eig (Fin 2)) (tol beta : ℝ) (m : ℤ), 0 < ranks → EigSpec eig → 0 < tol → 0 < beta → m ≠ 0 →
      tol ≤ ‖matsubara .boson beta m‖ →
      leftCharge X (lindhard ranks eig tol beta 0 [0] e (matsubara .boson beta m) 0) 0 0 ≠ 0 := by
  refine ⟨fun _ => twist, twist, fun _ => twist_hermitian, fun _ => rfl, ?_⟩
  intro ranks eig tol beta m hr hs ht hb hm htol
  have hnl : ¬ ‖matsubara .boson beta m‖ < tol := not_lt.2 htol
  have hself : ∀ x, totalFactor tol beta (matsubara .boson beta m) x x = 0 := fun x => by
    rw [totalFactor_self tol beta ht, if_neg hnl]
  rw [twist_lindhard ranks hr hs, twist_charge _ hself]
  exact mul_ne_zero (by norm_num) (twist_factor_ne tol beta m hb hnl)

/-! ## Examples -/

/-- a dimer with hopping `t`: time reversal symmetric, the hopping itself is conserved -/
example (t : ℝ) : (∀ k : Lat (fun _ : Fin 1 => 2), ((fun _ => !![0, (t : ℂ); (t : ℂ), 0]) k).IsHermitian) ∧
    TimeReversal (fun _ : Lat (fun _ : Fin 1 => 2) => !![0, (t : ℂ); (t : ℂ), 0]) ∧
    Conserved (fun _ : Lat (fun _ : Fin 1 => 2) => !![0, (t : ℂ); (t : ℂ), 0]) !![0, 1; 1, 0] := by
  refine ⟨fun _ => ?_, fun _ => ?_, fun _ => ?_⟩ <;>
  · ext i j
    fin_cases i <;> fin_cases j <;> simp

/-- the density interaction is an interaction between conserved charges, for every dispersion: the hypothesis of `C116_unscreened` -/
example (e : Lat n → Matrix o o ℂ) (v : ℂ) (c f : o) :
    Conserved e (Matrix.of fun a b => densityInteraction v a b c f) := by
  have h : (Matrix.of fun a b => densityInteraction v a b c f) = (v * if c = f then 1 else 0) • (1 : Matrix o o ℂ) := by
    ext a b
    simp only [Matrix.of_apply, densityInteraction, Matrix.smul_apply, Matrix.one_apply, smul_eq_mul]
    ring
  intro k
  rw [h, Matrix.smul_mul, Matrix.mul_smul, one_mul, mul_one]

/-- the dielectric constant of `C116_dielectric` is not zero for a repulsive interaction and a negative polarisation -/
example : (1 : ℂ) - 2 * ∑ a : Fin 2, ∑ c : Fin 2, (fun _ _ _ _ => -1 : T4 (Fin 2)) a a c c ≠ 0 := by
  norm_num

end Verif.Lindhard
