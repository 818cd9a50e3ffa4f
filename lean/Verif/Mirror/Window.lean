import Verif.Mirror.Gw

/-!
# C129: sums over a window of fermionic frequencies, and transforms that treat particles and holes alike
-/

set_option linter.unusedSectionVars false

noncomputable section

namespace Verif.Mirror

open Complex Matrix Verif.Parallel Verif.Fourier Verif.Bubble Verif.Gw

/-! ## The sum over fermionic frequencies -/

section General

variable {dm : ℕ} {n : Fin dm → ℕ} [∀ i, NeZero (n i)] {o : Type*} [Fintype o] [DecidableEq o]

/-- what `chi0q_sum_nu` returns for the bubble of a Green's function, fermionic frequencies in `S` -/
def bubbleSum (ranks : ℕ) (beta : ℂ) (mesh : List (ℤ × Lat n)) (g : G n o) (S : Finset ℤ) : ℤ × Lat n → Bubble.T4 o :=
  Bse.chi0qSumNu (ν := S) ranks beta mesh fun w nu k => chi0nFromGwk beta g w k nu.1

theorem bubbleSum_apply {ranks : ℕ} (hr : 0 < ranks) (beta : ℂ) {mesh : List (ℤ × Lat n)} (hm : mesh.Nodup) (g : G n o) (S : Finset ℤ)
    {w : ℤ} {k : Lat n} (hp : (w, k) ∈ mesh) (a b c d : o) :
    bubbleSum ranks beta mesh g S (w, k) a b c d = (∑ nu ∈ S, chi0nFromGwk beta g w k nu a b c d) / (beta * beta) := by
  rw [bubbleSum, Bse.chi0qSumNu, C02_distributedAssign ranks hr mesh hm, if_pos hp]
  change (∑ nu : S, chi0nFromGwk beta g w k nu.1 a b c d) / (beta * beta) = _
  congr 1
  exact Finset.sum_coe_sort S fun nu => chi0nFromGwk beta g w k nu a b c d

/-- C129: the summed bubble of the holes, when the window is mapped to itself by `ν → -ν - ω`; symmetric windows are only at `ω = 0`. -/
theorem C129_window_partial {ranks : ℕ} (hr : 0 < ranks) (beta : ℂ) {mesh : List (ℤ × Lat n)} (hm : mesh.Nodup) (g : G n o)
    (S : Finset ℤ) {w : ℤ} {k : Lat n} (hp : (w, k) ∈ mesh) (hS : ∀ nu, -nu - w - 1 ∈ S ↔ nu ∈ S) :
    bubbleSum ranks beta mesh (holeG g) S (w, k) = hole4 (bubbleSum ranks beta mesh g S (w, k)) := by
  funext a b c d
  simp only [hole4]
  rw [bubbleSum_apply hr beta hm _ S hp, bubbleSum_apply hr beta hm _ S hp]
  congr 1
  refine Finset.sum_nbij' (fun nu => -nu - w - 1) (fun nu => -nu - w - 1) (fun nu h => (hS nu).2 h) (fun nu h => (hS nu).2 h)
    (fun nu _ => by ring) (fun nu _ => by ring) fun nu _ => ?_
  have hc : Complete (Finset.univ : Finset (Lat n)).toList := ⟨Finset.nodup_toList _, fun k => Finset.mem_toList.2 (Finset.mem_univ k)⟩
  rw [(C129_bubble hr beta hc g w nu).1 k]
  rfl

end General

/-! ## One level -/

/-- fermionic frequency -/
def nuVal (beta : ℝ) (w : ℤ) : ℝ := (2 * w + 1) * Real.pi / beta

/-- Green's function of one level, one momentum -/
def level (beta e : ℝ) : G (fun _ : Fin 1 => 1) (Fin 1) := fun w _ _ _ => 1 / (nuVal beta w * I - e)

theorem level_hole (beta e : ℝ) : level beta (-e) = holeG (level beta e) := by
  funext w k a b
  simp only [level, holeG]
  have h : nuVal beta (-w - 1) = -nuVal beta w := by
    unfold nuVal
    push_cast
    ring
  rw [h, ← div_neg]
  congr 1
  push_cast
  ring

theorem two_poles_im (a b e : ℝ) : (1 / ((a * I - e) * (b * I - e)) : ℂ).im
    = e * (a + b) / Complex.normSq ((a * I - e) * (b * I - e)) := by
  rw [one_div, Complex.inv_im]
  congr 1
  simp
  ring

/-- C129 violated: the sum over the window `-N ≤ ν < N` treats particles and holes differently at every non-zero bosonic
frequency, here the first one, for one level away from the Fermi level and a window of any size: `G(ν)G(ν+ω)` leaves the window at
its upper end only. -/
theorem C129_window_violated {ranks : ℕ} (hr : 0 < ranks) {beta : ℝ} (hb : 0 < beta) {e : ℝ} (he : e ≠ 0) {N : ℕ} (hN : 0 < N) :
    bubbleSum ranks (beta : ℂ) [(1, 0)] (level beta (-e)) (Finset.Ico (-N : ℤ) N) (1, 0) 0 0 0 0
      ≠ hole4 (bubbleSum ranks (beta : ℂ) [(1, 0)] (level beta e) (Finset.Ico (-N : ℤ) N) (1, 0)) 0 0 0 0 := by
  have hbc : (beta : ℂ) ≠ 0 := by exact_mod_cast hb.ne'
  have hcard : (Fintype.card (Lat fun _ : Fin 1 => 1) : ℂ) = 1 := by
    have : Fintype.card (Lat fun _ : Fin 1 => 1) = 1 := by decide
    rw [this, Nat.cast_one]
  have hu : ∀ F : Lat (fun _ : Fin 1 => 1) → ℂ, ∑ k, F k = F 0 := by
    intro F
    exact Fintype.sum_eq_single 0 fun k hk => absurd (funext fun i => Subsingleton.elim (α := ZMod 1) _ _) hk
  set x : ℤ → ℂ := fun w => 1 / (nuVal beta w * I - e) with hx
  have hneg : ∀ w, nuVal beta (-w - 1) = -nuVal beta w := by
    intro w
    unfold nuVal
    push_cast
    ring
  have hl : ∀ w, 1 / ((nuVal beta w : ℂ) * I - ((-e : ℝ) : ℂ)) = -x (-w - 1) := by
    intro w
    rw [hx]
    dsimp only
    rw [hneg, ← div_neg]
    congr 1
    push_cast
    ring
  have e1 : bubbleSum ranks (beta : ℂ) [(1, 0)] (level beta e) (Finset.Ico (-N : ℤ) N) (1, 0) 0 0 0 0
      = -(∑ nu ∈ Finset.Ico (-N : ℤ) N, x nu * x (nu + 1)) / beta := by
    rw [bubbleSum_apply hr _ (List.nodup_singleton _) _ _ (List.mem_singleton.2 rfl)]
    simp only [chi0nFromGwk, hu, hcard, level, div_one]
    rw [← Finset.sum_mul, Finset.sum_neg_distrib]
    change -(∑ nu ∈ Finset.Ico (-N : ℤ) N, x nu * x (nu + 1)) * (beta : ℂ) / (beta * beta) = _
    field_simp
  have e2 : bubbleSum ranks (beta : ℂ) [(1, 0)] (level beta (-e)) (Finset.Ico (-N : ℤ) N) (1, 0) 0 0 0 0
      = -(∑ nu ∈ Finset.Ico (-N : ℤ) N, x (nu - 1) * x nu) / beta := by
    rw [bubbleSum_apply hr _ (List.nodup_singleton _) _ _ (List.mem_singleton.2 rfl)]
    simp only [chi0nFromGwk, hu, hcard, level, div_one, hl]
    rw [← Finset.sum_mul, Finset.sum_neg_distrib]
    have e3 : (∑ nu ∈ Finset.Ico (-N : ℤ) N, -x (-nu - 1) * -x (-(nu + 1) - 1)) = ∑ nu ∈ Finset.Ico (-N : ℤ) N, x (nu - 1) * x nu := by
      refine Finset.sum_nbij' (fun nu => -nu - 1) (fun nu => -nu - 1) ?_ ?_ (fun nu _ => by ring) (fun nu _ => by ring) ?_
      · intro nu h
        rw [Finset.mem_Ico] at h ⊢
        omega
      · intro nu h
        rw [Finset.mem_Ico] at h ⊢
        omega
      · intro nu _
        rw [neg_mul_neg, mul_comm, show -(nu + 1) - 1 = -nu - 1 - 1 by ring]
    rw [e3]
    field_simp
  change _ ≠ bubbleSum ranks (beta : ℂ) [(1, 0)] (level beta e) (Finset.Ico (-N : ℤ) N) (1, 0) 0 0 0 0
  rw [e1, e2]
  have tele : ∀ M : ℕ, ∑ nu ∈ Finset.Ico (-M : ℤ) M, x nu * x (nu + 1) - ∑ nu ∈ Finset.Ico (-M : ℤ) M, x (nu - 1) * x nu
      = x (M - 1) * x M - x (-M - 1) * x (-M) := by
    intro M
    rw [← Finset.sum_sub_distrib]
    have : ∀ (L : ℕ) (a : ℤ), ∑ nu ∈ Finset.Ico a (a + L), (x nu * x (nu + 1) - x (nu - 1) * x nu)
        = x (a + L - 1) * x (a + L) - x (a - 1) * x a := by
      intro L a
      induction L with
      | zero => simp
      | succ L ih =>
        rw [show (a + ((L + 1 : ℕ) : ℤ)) = (a + L) + 1 by push_cast; ring, ← Finset.insert_Ico_right_eq_Ico_add_one (by omega),
          Finset.sum_insert (by simp), ih]
        rw [show a + (L : ℤ) + 1 - 1 = a + L by ring]
        ring
    have h2 := this (2 * M) (-M)
    rw [show (-(M : ℤ) + ((2 * M : ℕ) : ℤ)) = M by push_cast; ring] at h2
    exact h2
  intro heq
  have h0 : ∑ nu ∈ Finset.Ico (-N : ℤ) N, x nu * x (nu + 1) - ∑ nu ∈ Finset.Ico (-N : ℤ) N, x (nu - 1) * x nu = 0 := by
    field_simp at heq
    linear_combination heq
  rw [tele] at h0
  set a := nuVal beta (N - 1) with ha
  set b := nuVal beta N with hbb
  have ea : nuVal beta (-N) = -a := by rw [ha, ← hneg]; congr 1; ring
  have eb : nuVal beta (-N - 1) = -b := by rw [hbb, ← hneg]
  have pos : 0 < a + b := by
    rw [ha, hbb]
    unfold nuVal
    have h1 : (1 : ℝ) ≤ N := by exact_mod_cast hN
    have := Real.pi_pos
    push_cast
    rw [← add_div]
    refine div_pos ?_ hb
    nlinarith
  have im0 := congrArg Complex.im h0
  have x1 : x (N - 1) * x N = 1 / ((a * I - e) * (b * I - e)) := by
    rw [hx]
    dsimp only
    rw [← ha, ← hbb]
    field_simp
  have x2 : x (-N - 1) * x (-N) = 1 / (((-a : ℝ) * I - e) * ((-b : ℝ) * I - e)) := by
    rw [hx]
    dsimp only
    rw [ea, eb, one_div_mul_one_div, mul_comm]
  rw [x1, x2, Complex.sub_im, two_poles_im, two_poles_im] at im0
  have nn : Complex.normSq ((((-a : ℝ) : ℂ) * I - e) * (((-b : ℝ) : ℂ) * I - e)) = Complex.normSq (((a : ℂ) * I - e) * ((b : ℂ) * I - e)) := by
    simp [Complex.normSq_apply]
    ring
  have np : 0 < Complex.normSq (((a : ℂ) * I - e) * ((b : ℂ) * I - e)) := by
    refine Complex.normSq_pos.2 (mul_ne_zero ?_ ?_) <;>
    · intro h
      have := congrArg Complex.re h
      simp at this
      exact he this
  rw [nn, Complex.zero_im] at im0
  have : e * (a + b) = 0 := by
    have h3 : e * (-a + -b) = -(e * (a + b)) := by ring
    rw [h3, neg_div, sub_neg_eq_add, add_self_eq_zero] at im0
    exact (div_eq_zero_iff.1 im0).resolve_right np.ne'
  rcases mul_eq_zero.1 this with h | h
  · exact he h
  · exact pos.ne' h

/-! ## Truncated Fourier sums -/

/-- sum over a window of fermionic frequencies, as transform to imaginary time -/
def sumToTau (beta : ℝ) (L N : ℕ) (x : ℤ → ℂ) (t : ℕ) : ℂ :=
  (1 / beta) * ∑ w ∈ Finset.Ico (-N : ℤ) N, x w * exp (-(nuVal beta w * (beta * t / L)) * I)

/-- sum over a symmetric window of bosonic frequencies -/
def sumToTauBose (beta : ℝ) (L N : ℕ) (x : ℤ → ℂ) (t : ℕ) : ℂ :=
  (1 / beta) * ∑ w ∈ Finset.Icc (-N : ℤ) N, x w * exp (-(2 * w * Real.pi / beta * (beta * t / L)) * I)

/-- trapezoidal rule for the transform to fermionic frequencies -/
def trapzFreq (beta : ℝ) (L : ℕ) (y : ℕ → ℂ) (w : ℤ) : ℂ :=
  (beta / L) * ((∑ t ∈ Finset.range (L + 1), y t * exp (nuVal beta w * (beta * t / L) * I))
    - 1 / 2 * (y 0 * exp (nuVal beta w * (beta * (0 : ℕ) / L) * I)) - 1 / 2 * (y L * exp (nuVal beta w * (beta * L / L) * I)))

/-- trapezoidal rule for the transform to bosonic frequencies -/
def trapzBose (beta : ℝ) (L : ℕ) (y : ℕ → ℂ) (w : ℤ) : ℂ :=
  (beta / L) * ((∑ t ∈ Finset.range (L + 1), y t * exp (2 * w * Real.pi / beta * (beta * t / L) * I))
    - 1 / 2 * (y 0 * exp (2 * w * Real.pi / beta * (beta * (0 : ℕ) / L) * I))
    - 1 / 2 * (y L * exp (2 * w * Real.pi / beta * (beta * L / L) * I)))

/-- first moment from the outermost frequencies -/
def outerMoment (beta : ℝ) (N : ℕ) (x : ℤ → ℂ) : ℂ := nuVal beta (N - 1) * I * (x (N - 1) - x (-N)) / 2

/-- density from the sum over the window and the first moment -/
def sumDensity (beta : ℝ) (N : ℕ) (x : ℤ → ℂ) : ℂ := outerMoment beta N x / 2 + (1 / beta) * ∑ w ∈ Finset.Ico (-N : ℤ) N, x w

theorem exp_reverse {beta : ℝ} (hb : beta ≠ 0) {L : ℕ} (hL : 0 < L) (w : ℤ) {t : ℕ} (ht : t ≤ L) :
    exp (nuVal beta w * (beta * ((L - t : ℕ) : ℂ) / L) * I) = -exp (-(nuVal beta w * (beta * t / L)) * I) := by
  have hbc : (beta : ℂ) ≠ 0 := by exact_mod_cast hb
  have hLc : (L : ℂ) ≠ 0 := by exact_mod_cast hL.ne'
  have h1 : (nuVal beta w : ℂ) * (beta * ((L - t : ℕ) : ℂ) / L) * I
      = -(nuVal beta w * (beta * t / L)) * I + (w * (2 * Real.pi * I) + Real.pi * I) := by
    rw [Nat.cast_sub ht]
    unfold nuVal
    push_cast
    field_simp
    ring
  rw [h1, Complex.exp_add, Complex.exp_add, Complex.exp_int_mul_two_pi_mul_I, Complex.exp_pi_mul_I]
  ring

theorem exp_reverse_bose {beta : ℝ} (hb : beta ≠ 0) {L : ℕ} (hL : 0 < L) (w : ℤ) {t : ℕ} (ht : t ≤ L) :
    exp (2 * w * Real.pi / beta * (beta * ((L - t : ℕ) : ℂ) / L) * I) = exp (-(2 * w * Real.pi / beta * (beta * t / L)) * I) := by
  have hbc : (beta : ℂ) ≠ 0 := by exact_mod_cast hb
  have hLc : (L : ℂ) ≠ 0 := by exact_mod_cast hL.ne'
  have h1 : (2 * w * Real.pi / beta * (beta * ((L - t : ℕ) : ℂ) / L) * I : ℂ)
      = -(2 * w * Real.pi / beta * (beta * t / L)) * I + w * (2 * Real.pi * I) := by
    rw [Nat.cast_sub ht]
    field_simp
    ring
  rw [h1, Complex.exp_add, Complex.exp_int_mul_two_pi_mul_I, mul_one]

theorem nuVal_neg (beta : ℝ) (w : ℤ) : nuVal beta (-w - 1) = -nuVal beta w := by
  unfold nuVal
  push_cast
  ring

theorem sum_reflect (N : ℕ) (F : ℤ → ℂ) : ∑ w ∈ Finset.Ico (-N : ℤ) N, F (-w - 1) = ∑ w ∈ Finset.Ico (-N : ℤ) N, F w := by
  refine Finset.sum_nbij' (fun w => -w - 1) (fun w => -w - 1) ?_ ?_ (fun w _ => by ring) (fun w _ => by ring) fun _ _ => rfl <;>
  · intro w h
    rw [Finset.mem_Ico] at h ⊢
    omega

theorem sum_reflect_bose (N : ℕ) (F : ℤ → ℂ) : ∑ w ∈ Finset.Icc (-N : ℤ) N, F (-w) = ∑ w ∈ Finset.Icc (-N : ℤ) N, F w := by
  refine Finset.sum_nbij' (fun w => -w) (fun w => -w) ?_ ?_ (fun w _ => by ring) (fun w _ => by ring) fun _ _ => rfl <;>
  · intro w h
    rw [Finset.mem_Icc] at h ⊢
    omega

/-- C129: plain Fourier sums and the trapezoidal rule treat the two directions of time alike, as `HoleGw` asks. -/
theorem C129_sums {beta : ℝ} (hb : beta ≠ 0) {L : ℕ} (hL : 0 < L) (N : ℕ) :
    (∀ x, ∀ t ≤ L, sumToTau beta L N (fun w => -x (-w - 1)) t = sumToTau beta L N x (L - t)) ∧
      (∀ x, ∀ t ≤ L, sumToTauBose beta L N (fun w => x (-w)) t = sumToTauBose beta L N x (L - t)) ∧
      (∀ y y' : ℕ → ℂ, (∀ t ≤ L, y' t = y (L - t)) → ∀ w, trapzFreq beta L y' w = -trapzFreq beta L y (-w - 1)) ∧
      (∀ y y' : ℕ → ℂ, (∀ t ≤ L, y' t = y (L - t)) → ∀ w, trapzBose beta L y' w = trapzBose beta L y (-w)) ∧
      ∀ x, sumDensity beta N (fun w => -x (-w - 1)) = outerMoment beta N x - sumDensity beta N x := by
  refine ⟨fun x t ht => ?_, fun x t ht => ?_, fun y y' hy w => ?_, fun y y' hy w => ?_, fun x => ?_⟩
  · unfold sumToTau
    congr 1
    rw [← sum_reflect N fun w => x w * exp (-(nuVal beta w * (beta * ((L - t : ℕ) : ℂ) / L)) * I)]
    refine Finset.sum_congr rfl fun w _ => ?_
    rw [nuVal_neg]
    have h := exp_reverse hb hL w ht
    push_cast
    rw [show -(-(nuVal beta w : ℂ) * (beta * ((L - t : ℕ) : ℂ) / L)) * I = nuVal beta w * (beta * ((L - t : ℕ) : ℂ) / L) * I by ring, h]
    ring
  · unfold sumToTauBose
    congr 1
    rw [← sum_reflect_bose N fun w => x w * exp (-(2 * w * Real.pi / beta * (beta * ((L - t : ℕ) : ℂ) / L)) * I)]
    refine Finset.sum_congr rfl fun w _ => ?_
    congr 1
    have h := exp_reverse_bose hb hL w ht
    rw [← h]
    congr 1
    push_cast
    ring
  · have key : ∀ t ≤ L, y' t * exp (nuVal beta w * (beta * t / L) * I)
        = -(y (L - t) * exp (nuVal beta (-w - 1) * (beta * ((L - t : ℕ) : ℂ) / L) * I)) := by
      intro t ht
      rw [hy t ht, exp_reverse hb hL _ ht, nuVal_neg]
      push_cast
      ring_nf
    unfold trapzFreq
    rw [key L le_rfl, key 0 (Nat.zero_le _), Nat.sub_self, Nat.sub_zero,
      Finset.sum_congr rfl fun t ht => key t (Nat.lt_succ_iff.1 (Finset.mem_range.1 ht)), Finset.sum_neg_distrib]
    have h2 := Finset.sum_range_reflect (fun t => y t * exp (nuVal beta (-w - 1) * (beta * (t : ℂ) / L) * I)) (L + 1)
    simp only [Nat.add_sub_cancel] at h2
    rw [h2]
    ring
  · have key : ∀ t ≤ L, y' t * exp (2 * w * Real.pi / beta * (beta * t / L) * I)
        = y (L - t) * exp (2 * ((-w : ℤ) : ℂ) * Real.pi / beta * (beta * ((L - t : ℕ) : ℂ) / L) * I) := by
      intro t ht
      rw [hy t ht, exp_reverse_bose hb hL _ ht]
      congr 2
      push_cast
      ring
    unfold trapzBose
    rw [key L le_rfl, key 0 (Nat.zero_le _), Nat.sub_self, Nat.sub_zero,
      Finset.sum_congr rfl fun t ht => key t (Nat.lt_succ_iff.1 (Finset.mem_range.1 ht))]
    have h2 := Finset.sum_range_reflect (fun t => y t * exp (2 * ((-w : ℤ) : ℂ) * Real.pi / beta * (beta * (t : ℂ) / L) * I)) (L + 1)
    simp only [Nat.add_sub_cancel] at h2
    rw [h2]
    ring
  · unfold sumDensity outerMoment
    dsimp only
    rw [Finset.sum_neg_distrib, sum_reflect, show (-((N : ℤ) - 1) - 1) = -N by ring, show (-(-(N : ℤ)) - 1) = N - 1 by ring]
    ring

end Verif.Mirror
