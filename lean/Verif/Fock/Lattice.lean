import Verif.Fock.Bogoliubov
import Verif.Fourier.Lemmas
import Verif.HartreeFock.SolverState

/-!
# The lattice Hamiltonian of the mean field solver on the Fock space

Specification side of C121: the many-body Hamiltonian whose mean field approximation is solved by
`HartreeFockSolver`, on a finite lattice with periodic boundary conditions, and the thermal state of the mean
field bands.
-/

noncomputable section

set_option linter.unusedSectionVars false

namespace Verif.Fock

open NormedSpace Matrix Verif.Fourier Verif.Operators

variable {d : ℕ} {n : Fin d → ℕ} [∀ i, NeZero (n i)] {ι : Type} [LinearOrder ι]
variable {s : Type} [Fintype s] [DecidableEq s]

/-! ## Specification -/

/-- elementary operators of the unit cell `R` -/
def cell (c : Lat n × ι → Matrix s s ℂ) (R : Lat n) (g : Gen ι) : Matrix s s ℂ :=
  if g.dag then (c (R, g.idx))ᴴ else c (R, g.idx)

/-- annihilation operator of the Bloch state with momentum `k` -/
def bloch (c : Lat n × ι → Matrix s s ℂ) (k : Lat n) (i : ι) : Matrix s s ℂ :=
  ((Real.sqrt (Fintype.card (Lat n)) : ℂ))⁻¹ •
    ∑ R : Lat n, Complex.exp (-(2 * Real.pi * Complex.I * ∑ i, ((R i).val * (k i).val : ℂ) / n i)) • c (R, i)

/-- one-body operator with the matrix `h k` at momentum `k` in the orbitals `fs` -/
def oneBody (fs : List ι) (c : Lat n × ι → Matrix s s ℂ) (h : Lat n → Matrix (Fin fs.length) (Fin fs.length) ℂ) :
    Matrix s s ℂ := ∑ k, ∑ a, ∑ b, h k a b • ((bloch c k (fs.get a))ᴴ * bloch c k (fs.get b))

/-- number of particles -/
def number (fs : List ι) (c : Lat n × ι → Matrix s s ℂ) : Matrix s s ℂ :=
  ∑ R : Lat n, ∑ a, (c (R, fs.get a))ᴴ * c (R, fs.get a)

/-- the local interaction `x` in every unit cell -/
def interaction (x : Op ι) (c : Lat n × ι → Matrix s s ℂ) : Matrix s s ℂ := ∑ R : Lat n, eval (cell c R) x

/-- the Hamiltonian with the dispersion `e` and the local interaction `x`, minus `mu` times the number of
particles -/
def hamiltonian (fs : List ι) (x : Op ι) (c : Lat n × ι → Matrix s s ℂ) (mu : ℝ)
    (e : Lat n → Matrix (Fin fs.length) (Fin fs.length) ℂ) : Matrix s s ℂ :=
  oneBody fs c e - (mu : ℂ) • number fs c + interaction x c

/-- grand potential per unit cell, `-T log Tr exp(-beta H)` -/
def grand (n : Fin d → ℕ) [∀ i, NeZero (n i)] (beta : ℝ) (H : Matrix s s ℂ) : ℝ :=
  -(1 / beta) * Real.log (exp (((-beta : ℝ) : ℂ) • H)).trace.re / Fintype.card (Lat n)

/-! ## Modes -/

theorem star_ker (x y : Lat n) : star (ker x y) = ker (-x) y := by
  rw [Complex.star_def, ← exp_eq_ker, ← exp_neg_eq_ker, ← Complex.exp_conj]
  congr 1
  simp only [map_mul, map_sum, map_div₀, Complex.conj_ofReal, Complex.conj_I, Complex.conj_natCast,
    Complex.conj_ofNat]
  push_cast
  ring

/-- modes of the unit cells in the order of the fundamental operators -/
def modes (fs : List ι) (c : Lat n × ι → Matrix s s ℂ) (p : Fin fs.length × Lat n) : Matrix s s ℂ :=
  c (p.2, fs.get p.1)

theorem modes_fermions {fs : List ι} (hnd : fs.Nodup) {c : Lat n × ι → Matrix s s ℂ} (hc : Fermions c) :
    Fermions (modes fs c) where
  anti p q := hc.anti _ _
  mixed p q := by
    rw [modes, modes, hc.mixed]
    have : ((p.2, fs.get p.1) = (q.2, fs.get q.1)) ↔ p = q := by
      rw [Prod.ext_iff, Prod.ext_iff, hnd.get_inj_iff]
      tauto
    by_cases h : p = q
    · rw [if_pos h, if_pos (this.2 h)]
    · rw [if_neg h, if_neg (fun h' => h (this.1 h'))]

theorem cell_car {c : Lat n × ι → Matrix s s ℂ} (hc : Fermions c) (R : Lat n) : CAR (cell c R) := by
  rintro ⟨p, i⟩ ⟨q, j⟩
  unfold cell contraction
  have ha : ∀ i j, (c (R, i))ᴴ * (c (R, j))ᴴ + (c (R, j))ᴴ * (c (R, i))ᴴ = 0 := by
    intro i j
    rw [← Matrix.conjTranspose_mul, ← Matrix.conjTranspose_mul, ← Matrix.conjTranspose_add, hc.anti,
      Matrix.conjTranspose_zero]
  cases p <;> cases q
  · simp [hc.anti]
  · have := hc.mixed (R, i) (R, j)
    by_cases h : i = j
    · simp [h] at this ⊢; exact this
    · simp [h] at this ⊢; exact this
  · have := hc.mixed (R, j) (R, i)
    rw [add_comm] at this
    by_cases h : i = j
    · simp [h] at this ⊢; exact this
    · simp [h, eq_comm] at this ⊢; exact this
  · simp [ha]

/-- matrix of the Fourier transformation -/
def four (R k : Lat n) : ℂ := ((Real.sqrt (Fintype.card (Lat n)) : ℂ))⁻¹ * ker R k

theorem sqrt_card_sq : ((Real.sqrt (Fintype.card (Lat n)) : ℂ))⁻¹ * ((Real.sqrt (Fintype.card (Lat n)) : ℂ))⁻¹
    = (Fintype.card (Lat n) : ℂ)⁻¹ := by
  rw [← mul_inv, ← Complex.ofReal_mul, Real.mul_self_sqrt (by positivity)]
  simp

theorem star_four (R k : Lat n) :
    star (four R k) = ((Real.sqrt (Fintype.card (Lat n)) : ℂ))⁻¹ * ker (-R) k := by
  rw [four, star_mul', star_ker, star_inv₀, Complex.star_def, Complex.conj_ofReal]

theorem four_left (k k' : Lat n) : ∑ R, star (four R k) * four R k' = if k = k' then 1 else 0 := by
  have h : ∀ R, star (four R k) * four R k' = (Fintype.card (Lat n) : ℂ)⁻¹ * ker R (k' - k) := by
    intro R
    rw [star_four, four, sub_eq_add_neg, ker_add_right, ker_neg_right, ← sqrt_card_sq]
    ring
  simp only [h, ← Finset.mul_sum, sum_ker, sub_eq_zero]
  by_cases hk : k = k'
  · rw [if_pos hk.symm, if_pos hk, inv_mul_cancel₀ card_ne_zero']
  · rw [if_neg (Ne.symm hk), if_neg hk, mul_zero]

theorem four_right (R R' : Lat n) : ∑ k, four R k * star (four R' k) = if R = R' then 1 else 0 := by
  have h : ∀ k, four R k * star (four R' k) = (Fintype.card (Lat n) : ℂ)⁻¹ * ker k (R - R') := by
    intro k
    rw [star_four, four, sub_eq_add_neg, ker_add_right, ker_comm k R, ker_comm k (-R'), ← sqrt_card_sq]
    ring
  simp only [h, ← Finset.mul_sum, sum_ker, sub_eq_zero]
  by_cases hk : R = R'
  · rw [if_pos hk, if_pos hk, inv_mul_cancel₀ card_ne_zero']
  · rw [if_neg hk, if_neg hk, mul_zero]

theorem bloch_eq (c : Lat n × ι → Matrix s s ℂ) (k : Lat n) (i : ι) :
    bloch c k i = ∑ R, star (four R k) • c (R, i) := by
  rw [bloch, Finset.smul_sum]
  refine Finset.sum_congr rfl fun R _ => ?_
  rw [smul_smul, star_four]
  congr 2
  rw [← exp_neg_eq_ker]
  congr 1
  push_cast
  ring

variable {N : ℕ}

/-- eigenmodes of the mean field bands -/
def waves (V : Lat n → Matrix (Fin N) (Fin N) ℂ) : Matrix (Fin N × Lat n) (Fin N × Lat n) ℂ :=
  fun p q => four p.2 q.2 * V q.2 p.1 q.1

theorem waves_left {V : Lat n → Matrix (Fin N) (Fin N) ℂ} (hV : ∀ k, (V k)ᴴ * V k = 1) :
    (waves V)ᴴ * waves V = 1 := by
  ext p q
  rw [Matrix.mul_apply, Fintype.sum_prod_type]
  have h : ∀ a R, (waves V)ᴴ p (a, R) * waves V (a, R) q
      = (star (four R p.2) * four R q.2) * (star (V p.2 a p.1) * V q.2 a q.1) := by
    intro a R
    rw [Matrix.conjTranspose_apply, waves, waves, star_mul']
    ring
  simp only [h, ← Finset.sum_mul, four_left]
  by_cases hk : p.2 = q.2
  · simp only [if_pos hk, one_mul]
    have := congrFun (congrFun (hV q.2) p.1) q.1
    rw [Matrix.mul_apply] at this
    simp only [Matrix.conjTranspose_apply] at this
    rw [hk, this, Matrix.one_apply, Matrix.one_apply]
    simp only [Prod.ext_iff, hk, and_true]
  · simp only [if_neg hk, zero_mul, Finset.sum_const_zero]
    rw [Matrix.one_apply_ne (fun h => hk (congrArg Prod.snd h))]

theorem waves_right {V : Lat n → Matrix (Fin N) (Fin N) ℂ} (hV : ∀ k, V k * (V k)ᴴ = 1) :
    waves V * (waves V)ᴴ = 1 := by
  ext p q
  rw [Matrix.mul_apply, Fintype.sum_prod_type_right]
  have h : ∀ k a, waves V p (a, k) * (waves V)ᴴ (a, k) q
      = (four p.2 k * star (four q.2 k)) * (V k p.1 a * star (V k q.1 a)) := by
    intro k a
    rw [Matrix.conjTranspose_apply, waves, waves, star_mul']
    ring
  have h2 : ∀ k, ∑ a, V k p.1 a * star (V k q.1 a) = if p.1 = q.1 then 1 else 0 := by
    intro k
    have := congrFun (congrFun (hV k) p.1) q.1
    rw [Matrix.mul_apply, Matrix.one_apply] at this
    exact this
  simp only [h, ← Finset.mul_sum, h2, ← Finset.sum_mul, four_right]
  rw [Matrix.one_apply]
  by_cases h1 : p.2 = q.2 <;> by_cases h3 : p.1 = q.1 <;> simp [Prod.ext_iff, h1, h3]

theorem rot_waves (fs : List ι) (c : Lat n × ι → Matrix s s ℂ)
    (V : Lat n → Matrix (Fin fs.length) (Fin fs.length) ℂ) (b : Fin fs.length) (k : Lat n) :
    rot (waves V) (modes fs c) (b, k) = ∑ a, star (V k a b) • bloch c k (fs.get a) := by
  rw [rot, Fintype.sum_prod_type]
  refine Finset.sum_congr rfl fun a _ => ?_
  rw [bloch_eq, Finset.smul_sum]
  refine Finset.sum_congr rfl fun R _ => ?_
  rw [smul_smul, waves, star_mul', modes, mul_comm]

/-- the mean field Hamiltonian in terms of its eigenmodes -/
theorem diagH_waves (fs : List ι) (c : Lat n × ι → Matrix s s ℂ)
    (V : Lat n → Matrix (Fin fs.length) (Fin fs.length) ℂ) (ε : Lat n → Fin fs.length → ℝ) :
    diagH (rot (waves V) (modes fs c)) Finset.univ (fun p => ε p.2 p.1)
      = oneBody fs c (fun k => V k * diagonal (fun i => (ε k i : ℂ)) * (V k)ᴴ) := by
  rw [diagH, Fintype.sum_prod_type_right, oneBody]
  refine Finset.sum_congr rfl fun k _ => ?_
  have h : ∀ b, (ε k b : ℂ) • num (rot (waves V) (modes fs c)) (b, k)
      = ∑ a, ∑ a', ((V k a b * (ε k b : ℂ) * star (V k a' b)) •
          ((bloch c k (fs.get a))ᴴ * bloch c k (fs.get a'))) := by
    intro b
    rw [num, rot_waves, Matrix.conjTranspose_sum, Finset.sum_mul, Finset.smul_sum]
    refine Finset.sum_congr rfl fun a _ => ?_
    rw [Finset.mul_sum, Finset.smul_sum]
    refine Finset.sum_congr rfl fun a' _ => ?_
    rw [Matrix.conjTranspose_smul, star_star, smul_mul_assoc, mul_smul_comm, smul_smul, smul_smul]
    congr 1
    ring
  simp only [h]
  rw [Finset.sum_comm]
  refine Finset.sum_congr rfl fun a _ => ?_
  rw [Finset.sum_comm]
  refine Finset.sum_congr rfl fun a' _ => ?_
  rw [← Finset.sum_smul, Matrix.mul_apply]
  congr 1
  refine Finset.sum_congr rfl fun b _ => ?_
  rw [Matrix.mul_diagonal, Matrix.conjTranspose_apply]

theorem oneBody_add (fs : List ι) (c : Lat n × ι → Matrix s s ℂ)
    (h h' : Lat n → Matrix (Fin fs.length) (Fin fs.length) ℂ) :
    oneBody fs c (fun k => h k + h' k) = oneBody fs c h + oneBody fs c h' := by
  simp only [oneBody, Matrix.add_apply, add_smul, Finset.sum_add_distrib]

/-- a one-body operator without dispersion is local -/
theorem oneBody_const (fs : List ι) (c : Lat n × ι → Matrix s s ℂ)
    (M : Matrix (Fin fs.length) (Fin fs.length) ℂ) :
    oneBody fs c (fun _ => M)
      = ∑ R : Lat n, ∑ a, ∑ b, M a b • ((c (R, fs.get a))ᴴ * c (R, fs.get b)) := by
  have key : ∀ i j : ι, ∑ k, (bloch c k i)ᴴ * bloch c k j = ∑ R : Lat n, (c (R, i))ᴴ * c (R, j) := by
    intro i j
    have h : ∀ k, (bloch c k i)ᴴ * bloch c k j
        = ∑ R, ∑ R', (four R k * star (four R' k)) • ((c (R, i))ᴴ * c (R', j)) := by
      intro k
      rw [bloch_eq, bloch_eq, Matrix.conjTranspose_sum, Finset.sum_mul]
      refine Finset.sum_congr rfl fun R _ => ?_
      rw [Finset.mul_sum]
      refine Finset.sum_congr rfl fun R' _ => ?_
      rw [Matrix.conjTranspose_smul, star_star, smul_mul_assoc, mul_smul_comm, smul_smul]
    simp only [h]
    rw [Finset.sum_comm]
    refine Finset.sum_congr rfl fun R _ => ?_
    rw [Finset.sum_comm]
    simp only [← Finset.sum_smul, four_right, ite_smul, one_smul, zero_smul]
    simp
  rw [oneBody, Finset.sum_comm]
  rw [Finset.sum_comm (s := Finset.univ (α := Lat n))]
  refine Finset.sum_congr rfl fun a _ => ?_
  rw [Finset.sum_comm]
  rw [Finset.sum_comm (s := Finset.univ (α := Lat n))]
  refine Finset.sum_congr rfl fun b _ => ?_
  rw [← Finset.smul_sum, ← Finset.smul_sum, key]

theorem oneBody_one (fs : List ι) (c : Lat n × ι → Matrix s s ℂ) (z : ℂ) :
    oneBody fs c (fun _ => z • 1) = z • number fs c := by
  rw [oneBody_const, number, Finset.smul_sum]
  refine Finset.sum_congr rfl fun R _ => ?_
  rw [Finset.smul_sum]
  refine Finset.sum_congr rfl fun a _ => ?_
  rw [Finset.sum_eq_single a]
  · simp
  · intro b _ hb
    simp [Matrix.one_apply_ne hb.symm]
  · simp

theorem oneBody_herm (fs : List ι) (c : Lat n × ι → Matrix s s ℂ)
    {h : Lat n → Matrix (Fin fs.length) (Fin fs.length) ℂ} (hh : ∀ k, (h k).IsHermitian) :
    (oneBody fs c h).IsHermitian := by
  rw [Matrix.IsHermitian, oneBody, Matrix.conjTranspose_sum]
  refine Finset.sum_congr rfl fun k _ => ?_
  rw [Matrix.conjTranspose_sum]
  simp only [Matrix.conjTranspose_sum]
  rw [Finset.sum_comm]
  refine Finset.sum_congr rfl fun a _ => Finset.sum_congr rfl fun b _ => ?_
  rw [Matrix.conjTranspose_smul, Matrix.conjTranspose_mul, Matrix.conjTranspose_conjTranspose, (hh k).apply]

theorem cell_dagger (c : Lat n × ι → Matrix s s ℂ) (R : Lat n) (m : Mono ι) :
    ((daggerMono m).map (cell c R)).prod = ((m.map (cell c R)).prod)ᴴ := by
  induction m with
  | nil => simp [daggerMono]
  | cons g m ih =>
    have h : daggerMono (g :: m) = daggerMono m ++ [⟨!g.dag, g.idx⟩] := by simp [daggerMono]
    have hg : cell c R ⟨!g.dag, g.idx⟩ = (cell c R g)ᴴ := by
      unfold cell
      cases hd : g.dag <;> simp
    rw [h, List.map_append, List.prod_append, ih, List.map_singleton, List.prod_singleton, hg, List.map_cons,
      List.prod_cons, Matrix.conjTranspose_mul]

theorem interaction_herm {x : Op ι} (hself : dagger x = x) {c : Lat n × ι → Matrix s s ℂ} (hc : Fermions c) :
    (interaction x c).IsHermitian := by
  rw [Matrix.IsHermitian, interaction, Matrix.conjTranspose_sum]
  refine Finset.sum_congr rfl fun R _ => ?_
  have h1 : (eval (cell c R) x)ᴴ = evalD (cell c R) x := by
    rw [eval, Finsupp.sum, Matrix.conjTranspose_sum]
    simp only [Matrix.conjTranspose_smul, ← cell_dagger]
    simp [evalD, Finsupp.sum]
  rw [h1, ← evalL_dagger (cell_car hc R), hself, ← eval_eq]

end Verif.Fock
