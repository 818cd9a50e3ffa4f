import Verif.Eliashberg.Fft

/-!
# C58: the transforms without tail corrections form a convolution pair
-/

noncomputable section

namespace Verif.Eliashberg

open Complex Verif.Parallel Verif.Fourier Verif.Bubble Verif.Gw

set_option linter.unusedSectionVars false

theorem wrap_spec (L : ℕ) (hL : 0 < L) (m : ℤ) : ∃ c : ℤ, (wrap L m : ℤ) = m + L * c := by
  have h1 := Int.emod_nonneg (m + L) (show (L : ℤ) ≠ 0 by omega)
  have h2 := Int.emod_add_mul_ediv (m + L) L
  refine ⟨1 - (m + L) / L, ?_⟩
  have : (wrap L m : ℤ) = (m + L) % L := by
    simp only [wrap]
    exact Int.toNat_of_nonneg h1
  rw [this]
  linarith

/-- `exp(2πi m t / L)` -/
def ph (L : ℕ) (m : ℤ) (t : ℕ) : ℂ := exp (2 * Real.pi * I * (t * m / L))

theorem ph_add (L : ℕ) (m m' : ℤ) (t : ℕ) : ph L (m + m') t = ph L m t * ph L m' t := by
  rw [ph, ph, ph, ← exp_add]
  congr 1
  push_cast
  ring

theorem ph_zero (L : ℕ) (m : ℤ) : ph L m 0 = 1 := by simp [ph]

theorem ph_mul (L : ℕ) (hL : 0 < L) (c : ℤ) (t : ℕ) : ph L (L * c) t = 1 := by
  have hL0 : (L : ℂ) ≠ 0 := by exact_mod_cast hL.ne'
  rw [ph, ← exp_int_mul_two_pi_mul_I (t * c)]
  congr 1
  push_cast
  field_simp

theorem ph_wrap (L : ℕ) (hL : 0 < L) (m : ℤ) (t : ℕ) : ph L (wrap L m) t = ph L m t := by
  obtain ⟨c, hc⟩ := wrap_spec L hL m
  rw [hc, ph_add, ph_mul L hL, mul_one]

theorem ph_wrap_neg (L : ℕ) (hL : 0 < L) (m : ℤ) (t : ℕ) : ph L (-(wrap L m : ℤ)) t = ph L (-m) t := by
  obtain ⟨c, hc⟩ := wrap_spec L hL m
  rw [hc, show -(m + L * c) = -m + L * (-c) by ring, ph_add, ph_mul L hL, mul_one]

theorem fftw1_one (L : ℕ) (x : ℕ → ℂ) (j : ℕ) : fftw1 1 L x j = ∑ t ∈ Finset.range L, ph L j t * x t := by
  simp only [fftw1, ph]
  refine Finset.sum_congr rfl fun t _ => ?_
  congr 2
  push_cast
  ring

theorem fftw1_neg (L : ℕ) (x : ℕ → ℂ) (j : ℕ) : fftw1 (-1) L x j = ∑ t ∈ Finset.range L, ph L (-(t : ℤ)) j * x t := by
  simp only [fftw1, ph]
  refine Finset.sum_congr rfl fun t _ => ?_
  congr 2
  push_cast
  ring

theorem tailW_zero (s : Stat) (w : ℂ) : tailW s 0 0 0 w = 0 := by
  cases s <;> simp [tailW, poleA, Fin.sum_univ_three]

theorem tailT_zero (s : Stat) (beta tau : ℝ) : tailT s 0 0 0 beta tau = 0 := by
  cases s <;> simp [tailT, poleA, Fin.sum_univ_three, oneFermion, oneBoson]

theorem gin_other (s : Stat) (beta : ℝ) (L : ℕ) (y : ℤ → ℂ) (l : List ℤ) (acc : ℕ → ℂ) (j : ℕ)
    (hj : ∀ m ∈ l, wrap L m ≠ j) : l.foldl (ginStore s beta L 0 0 0 y) acc j = acc j := by
  induction l generalizing acc with
  | nil => rfl
  | cons m l ih =>
    rw [List.foldl_cons, ih _ fun x hx => hj x (List.mem_cons_of_mem _ hx), ginStore,
      Function.update_of_ne (Ne.symm (hj m (by simp)))]

theorem sum_gin (s : Stat) (beta : ℝ) (L : ℕ) (hL : 0 < L) (y : ℤ → ℂ) (l : List ℤ)
    (hl : ∀ x ∈ l, ∀ y ∈ l, |x - y| < L) (f : ℕ → ℂ) :
    ∑ j ∈ Finset.range L, f j * l.foldl (ginStore s beta L 0 0 0 y) (fun _ => 0) j
      = (1 / beta : ℂ) * ∑ m ∈ l.toFinset, f (wrap L m) * y m := by
  have hsub : l.toFinset.image (wrap L) ⊆ Finset.range L := by
    intro j hj
    obtain ⟨m, _, rfl⟩ := Finset.mem_image.1 hj
    exact Finset.mem_range.2 (wrap_lt L hL m)
  rw [← Finset.sum_subset hsub, Finset.sum_image, Finset.mul_sum]
  · refine Finset.sum_congr rfl fun m hm => ?_
    rw [gin_value s beta L hL 0 0 0 y l hl _ m (List.mem_toFinset.1 hm), tailW_zero, sub_zero]
    ring
  · intro a ha b hb e
    exact wrap_inj L hL a b (hl a (List.mem_toFinset.1 ha) b (List.mem_toFinset.1 hb)) e
  · intro j _ hj
    rw [gin_other, mul_zero]
    intro m hm e
    exact hj (Finset.mem_image.2 ⟨m, List.mem_toFinset.2 hm, e⟩)

/-- the frequency sum, `exp(-iω_m τ_t)` written with the phase of the code -/
def tauSum (s : Stat) (beta : ℝ) (L N : ℕ) (y : ℤ → ℂ) (t : ℕ) : ℂ :=
  (1 / beta : ℂ) * (∑ m ∈ (wIndices s N).toFinset, ph L (-m) t * y m) * shiftPhase s beta (tauOf beta L t) (-1)

theorem wToTau_plain (s : Stat) (beta : ℝ) (L N : ℕ) (hN : 0 < N) (hL : 2 * N ≤ L) (y : ℤ → ℂ) :
    wToTau s beta L N 0 0 0 y = .ok (Function.update (tauSum s beta L N y) L (boundarySign s * tauSum s beta L N y 0)) := by
  have hLpos : 0 < L := by omega
  have key : ∀ t, fftw1 (-1) L ((wIndices s N).foldl (ginStore s beta L 0 0 0 y) fun _ => 0) t
      * shiftPhase s beta (tauOf beta L t) (-1) + tailT s 0 0 0 beta (tauOf beta L t) = tauSum s beta L N y t := by
    intro t
    rw [tailT_zero, add_zero, fftw1_neg, sum_gin s beta L hLpos y _ ?_ fun j => ph L (-(j : ℤ)) t]
    · simp only [ph_wrap_neg L hLpos, tauSum]
    · intro x hx z hz
      have h1 := wIndices_bound s N x hx
      have h2 := wIndices_bound s N z hz
      rw [abs_lt]
      omega
  rw [wToTau, if_neg (by omega)]
  simp only [key, add_zero]

theorem fermion_toFinset (N : ℕ) : (wIndices .fermion N).toFinset = window N := by
  ext m
  rw [List.mem_toFinset, mem_wIndices_fermion]

theorem mem_boson (N : ℕ) (m : ℤ) : m ∈ (wIndices .boson N).toFinset ↔ |m| < N := by
  simp only [List.mem_toFinset, wIndices, List.mem_map, List.mem_range, abs_lt]
  constructor
  · rintro ⟨j, hj, rfl⟩; omega
  · rintro ⟨h1, h2⟩; exact ⟨(m + (N - 1)).toNat, by omega, by omega⟩

theorem plain_toTau (beta : ℝ) (L N : ℕ) (hN : 0 < N) (hL : 2 * N ≤ L) (y : ℤ → ℂ) :
    (plainTransforms beta L N).toTau y
      = Function.update (tauSum .fermion beta L N y) L (-tauSum .fermion beta L N y 0) := by
  simp only [plainTransforms, wToTau_plain .fermion beta L N hN hL, boundarySign, neg_one_mul]

theorem plain_gamma (beta : ℝ) (L N : ℕ) (hN : 0 < N) (hL : 2 * N ≤ L) (y : ℤ → ℂ) :
    plainGammaToTau beta L N y = Function.update (tauSum .boson beta L N y) L (tauSum .boson beta L N y 0) := by
  simp only [plainGammaToTau, wToTau_plain .boson beta L N hN hL, boundarySign, one_mul]

theorem tailT_first (m1 : ℂ) (beta tau : ℝ) : tailT .fermion m1 0 0 beta tau = -m1 / 2 := by
  simp [tailT, poleA, poleB, Fin.sum_univ_three, oneFermion]
  ring

theorem tailW_first (m1 w : ℂ) : tailW .fermion m1 0 0 w = m1 / w := by
  simp [tailW, poleA, poleB, Fin.sum_univ_three]

theorem plain_toFreq (beta : ℝ) (L N : ℕ) (hL : 2 * N ≤ L) (z : ℕ → ℂ) (m : ℤ) :
    (plainTransforms beta L N).toFreq z m
      = ∑ t ∈ Finset.range L, ph L (wrap L m) t * ((beta / L : ℂ) * (shiftPhase .fermion beta (tauOf beta L t) 1
          * (z t - (z 0 + z L) / 2))) + -(z 0 + z L) / matsubara .fermion beta m := by
  simp only [plainTransforms, tauToW, if_neg (not_lt.2 hL), firstMoment, tailT_first, tailW_first, fftw1_one, neg_neg]

theorem tauSum_add (s : Stat) (beta : ℝ) (L N : ℕ) (x y : ℤ → ℂ) (t : ℕ) :
    tauSum s beta L N (x + y) t = tauSum s beta L N x t + tauSum s beta L N y t := by
  simp only [tauSum, Pi.add_apply, mul_add, Finset.sum_add_distrib, add_mul]

theorem tauSum_smul (s : Stat) (beta : ℝ) (L N : ℕ) (c : ℂ) (y : ℤ → ℂ) (t : ℕ) :
    tauSum s beta L N (c • y) t = c * tauSum s beta L N y t := by
  simp only [tauSum, Pi.smul_apply, smul_eq_mul, Finset.mul_sum, Finset.sum_mul]
  refine Finset.sum_congr rfl fun m _ => ?_
  ring

theorem shiftPhase_inv (s : Stat) (beta tau : ℝ) (x : ℂ) :
    shiftPhase s beta tau 1 * (x * shiftPhase s beta tau (-1)) = x := by
  rw [mul_left_comm, shiftPhase_mul, mul_one]

/-- C58: the transforms of the code with vanishing tail moments satisfy `ConvPair`, when the time mesh is long enough
(with the default `L = 6 N` and equal meshes this holds). -/
theorem C58_plain_convPair (beta : ℝ) (hb : 0 < beta) (N NG L : ℕ) (hN : 0 < N) (hNG : 0 < NG) (hL : 2 * N ≤ L)
    (hLG : 2 * NG ≤ L) (hal : 2 * N + NG ≤ L + 1) :
    ConvPair (plainTransforms beta L N) (plainGammaToTau beta L NG) beta N NG L where
  t_add x y := by
    simp only [plain_toTau beta L N hN hL]
    funext t
    by_cases h : t = L
    · subst h; simp only [Function.update_self, Pi.add_apply, tauSum_add]; ring
    · simp only [Function.update_of_ne h, Pi.add_apply, tauSum_add]
  t_smul c x := by
    simp only [plain_toTau beta L N hN hL]
    funext t
    by_cases h : t = L
    · subst h; simp only [Function.update_self, Pi.smul_apply, tauSum_smul, smul_eq_mul]; ring
    · simp only [Function.update_of_ne h, Pi.smul_apply, tauSum_smul, smul_eq_mul]
  t_local x y h := by
    simp only [plain_toTau beta L N hN hL]
    have : tauSum .fermion beta L N x = tauSum .fermion beta L N y := by
      funext t
      simp only [tauSum, fermion_toFinset]
      congr 2
      exact Finset.sum_congr rfl fun m hm => by rw [h m hm]
    rw [this]
  g_add x y := by
    simp only [plain_gamma beta L NG hNG hLG]
    funext t
    by_cases h : t = L
    · subst h; simp only [Function.update_self, Pi.add_apply, tauSum_add]
    · simp only [Function.update_of_ne h, Pi.add_apply, tauSum_add]
  g_smul c x := by
    simp only [plain_gamma beta L NG hNG hLG]
    funext t
    by_cases h : t = L
    · subst h; simp only [Function.update_self, Pi.smul_apply, tauSum_smul, smul_eq_mul]
    · simp only [Function.update_of_ne h, Pi.smul_apply, tauSum_smul, smul_eq_mul]
  f_add x y := by
    funext m
    simp only [Pi.add_apply, plain_toFreq beta L N hL]
    conv_rhs => rw [add_add_add_comm, ← Finset.sum_add_distrib, ← add_div]
    congr 1
    · refine Finset.sum_congr rfl fun t _ => ?_
      ring
    · congr 1
      ring
  f_smul c x := by
    funext m
    simp only [Pi.smul_apply, smul_eq_mul, plain_toFreq beta L N hL]
    rw [mul_add, Finset.mul_sum, ← mul_div_assoc]
    congr 1
    · refine Finset.sum_congr rfl fun t _ => ?_
      ring
    · congr 1
      ring
  f_local x y h := by
    funext m
    simp only [plain_toFreq beta L N hL, h 0 (Nat.zero_le _), h L le_rfl]
    congr 1
    refine Finset.sum_congr rfl fun t ht => ?_
    rw [h t (Finset.mem_range.1 ht).le]
  zero y := by
    rw [plain_toTau beta L N hN hL, Function.update_of_ne (by omega)]
    simp [tauSum, fermion_toFinset, ph_zero, shiftPhase, tauOf]
  conv x y w hw := by
    have hLpos : 0 < L := by omega
    have hL0 : (L : ℂ) ≠ 0 := by exact_mod_cast hLpos.ne'
    have hb0 : (beta : ℂ) ≠ 0 := by exact_mod_cast hb.ne'
    rw [plain_toFreq beta L N hL, plain_toTau beta L N hN hL, plain_gamma beta L NG hNG hLG]
    have hzero : (Function.update (tauSum .boson beta L NG x) L (tauSum .boson beta L NG x 0) 0
        * Function.update (tauSum .fermion beta L N y) L (-tauSum .fermion beta L N y 0) 0
        + Function.update (tauSum .boson beta L NG x) L (tauSum .boson beta L NG x 0) L
        * Function.update (tauSum .fermion beta L N y) L (-tauSum .fermion beta L N y 0) L) = 0 := by
      rw [Function.update_self, Function.update_self, Function.update_of_ne (by omega),
        Function.update_of_ne (by omega)]
      ring
    rw [hzero]
    simp only [neg_zero, zero_div, add_zero, sub_zero]
    have hterm : ∀ t ∈ Finset.range L, ph L (wrap L w) t * ((beta / L : ℂ) * (shiftPhase .fermion beta (tauOf beta L t) 1
        * (Function.update (tauSum .boson beta L NG x) L (tauSum .boson beta L NG x 0) t
          * Function.update (tauSum .fermion beta L N y) L (-tauSum .fermion beta L N y 0) t)))
        = ∑ m ∈ window N, ∑ l ∈ (wIndices .boson NG).toFinset,
          (1 / (beta * L) : ℂ) * (x l * y m) * ph L (w - l - m) t := by
      intro t ht
      have htL : t ≠ L := by have := Finset.mem_range.1 ht; omega
      rw [Function.update_of_ne htL, Function.update_of_ne htL, ph_wrap L hLpos]
      have e : shiftPhase .fermion beta (tauOf beta L t) 1
          * (tauSum .boson beta L NG x t * tauSum .fermion beta L N y t)
          = (1 / beta : ℂ) * (∑ l ∈ (wIndices .boson NG).toFinset, ph L (-l) t * x l)
            * ((1 / beta : ℂ) * ∑ m ∈ window N, ph L (-m) t * y m) := by
        rw [← shiftPhase_inv .fermion beta (tauOf beta L t) ((1 / beta : ℂ) * (∑ l ∈ (wIndices .boson NG).toFinset, ph L (-l) t * x l)
            * ((1 / beta : ℂ) * ∑ m ∈ window N, ph L (-m) t * y m))]
        simp only [tauSum, fermion_toFinset]
        simp only [shiftPhase, mul_one]
        ring
      rw [e]
      simp only [Finset.mul_sum, Finset.sum_mul]
      refine Finset.sum_congr rfl fun m _ => Finset.sum_congr rfl fun l _ => ?_
      rw [show w - l - m = w + (-l) + (-m) by ring, ph_add, ph_add]
      field_simp
    rw [Finset.sum_congr rfl hterm, Finset.sum_comm, Finset.mul_sum]
    refine Finset.sum_congr rfl fun m hm => ?_
    rw [Finset.sum_comm]
    have hsum : ∀ l ∈ (wIndices .boson NG).toFinset, ∑ t ∈ Finset.range L,
        (1 / (beta * L) : ℂ) * (x l * y m) * ph L (w - l - m) t
        = if l = w - m then (1 / beta : ℂ) * (x l * y m) else 0 := by
      intro l hl
      rw [← Finset.mul_sum]
      have h1 := sum_exp_range L hLpos (w - l - m)
      have h2 : ∑ t ∈ Finset.range L, ph L (w - l - m) t = if (L : ℤ) ∣ w - l - m then (L : ℂ) else 0 := h1
      rw [h2]
      rw [mem_boson, abs_lt] at hl
      simp only [Finset.mem_Ico] at hw hm
      by_cases hd : l = w - m
      · rw [if_pos hd, if_pos (by rw [hd]; simp)]
        field_simp
      · rw [if_neg hd, if_neg, mul_zero]
        intro hdvd
        have := Int.eq_zero_of_abs_lt_dvd hdvd (by rw [abs_lt]; omega)
        omega
    rw [Finset.sum_congr rfl hsum, Finset.sum_ite_eq']
    simp only [mem_boson]
    split_ifs <;> ring

/-- C58: with the default time meshes (`6 N` intervals for both functions, hence `N` vertex frequencies) the transforms
of the code without tail corrections satisfy the hypotheses, for every `N ≥ 1`. -/
theorem C58_default_meshes (beta : ℝ) (hb : 0 < beta) (N : ℕ) (hN : 0 < N) :
    ConvPair (plainTransforms beta (6 * N) N) (plainGammaToTau beta (6 * N) N) beta N N (6 * N) :=
  C58_plain_convPair beta hb N N (6 * N) hN hN (by omega) (by omega) (by omega)

end Verif.Eliashberg
