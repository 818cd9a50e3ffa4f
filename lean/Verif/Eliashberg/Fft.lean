import Verif.Eliashberg.Props

/-!
# C58: explicit sum and Fourier evaluation of the Eliashberg product
-/

noncomputable section

namespace Verif.Eliashberg

open Complex Verif.Parallel Verif.Fourier Verif.Bubble Verif.Gw

variable {d : ℕ} {n : Fin d → ℕ} [∀ i, NeZero (n i)] {o : Type*} [Fintype o] [DecidableEq o]

set_option linter.unusedSectionVars false

/-- What is needed of the frequency ↔ time transforms: linear, local on the meshes, a product in time is a convolution
in frequency (frequencies outside the mesh of the vertex do not contribute) and the value at the first time point is
the frequency sum. -/
structure ConvPair (T : Transforms) (gT : (ℤ → ℂ) → ℕ → ℂ) (beta : ℝ) (N NG L : ℕ) : Prop where
  t_add : ∀ x y, T.toTau (x + y) = T.toTau x + T.toTau y
  t_smul : ∀ (c : ℂ) x, T.toTau (c • x) = c • T.toTau x
  t_local : ∀ x y : ℤ → ℂ, (∀ m ∈ window N, x m = y m) → T.toTau x = T.toTau y
  g_add : ∀ x y, gT (x + y) = gT x + gT y
  g_smul : ∀ (c : ℂ) x, gT (c • x) = c • gT x
  f_add : ∀ x y, T.toFreq (x + y) = T.toFreq x + T.toFreq y
  f_smul : ∀ (c : ℂ) x, T.toFreq (c • x) = c • T.toFreq x
  f_local : ∀ x y : ℕ → ℂ, (∀ t ≤ L, x t = y t) → T.toFreq x = T.toFreq y
  zero : ∀ y, T.toTau y 0 = (1 / beta : ℂ) * ∑ m ∈ window N, y m
  conv : ∀ x y, ∀ w ∈ window N, T.toFreq (fun t => gT x t * T.toTau y t) w
    = (1 / beta : ℂ) * ∑ m ∈ window N, (if |w - m| < NG then x (w - m) else 0) * y m

theorem lin_sum' {A B : Type*} {ι : Type*} (T : (A → ℂ) → B → ℂ) (ha : ∀ x y, T (x + y) = T x + T y)
    (hs : ∀ (c : ℂ) x, T (c • x) = c • T x) (s : Finset ι) (f : ι → A → ℂ) (t : B) :
    T (fun w => ∑ i ∈ s, f i w) t = ∑ i ∈ s, T (f i) t := by
  have := congrFun (lin_sum T ha hs s (fun _ => 1) f) t
  simpa only [one_mul] using this

theorem lin_mul {A B : Type*} (T : (A → ℂ) → B → ℂ) (hs : ∀ (c : ℂ) x, T (c • x) = c • T x) (c : ℂ) (f : A → ℂ)
    (t : B) : T (fun w => c * f w) t = c * T f t := congrFun (hs c f) t

/-- the vertex on the frequencies of its mesh, extended by zero, plus the constant part -/
def fullVertex (NG : ℕ) (dyn : ℤ → Lat n → T4 o) (const : Lat n → T4 o) : ℤ → Lat n → T4 o :=
  fun l q a b c d => (if |l| < NG then dyn l q a b c d else 0) + const q a b c d

theorem fTr_eq {T : Transforms} {gT : (ℤ → ℂ) → ℕ → ℂ} {beta : ℝ} {N NG L : ℕ} (hT : ConvPair T gT beta N NG L)
    (F : ℤ × Lat n → o → o → ℂ) (P : ℤ → Lat n → o → o → ℂ) (hF : ∀ m ∈ window N, ∀ k, F (m, k) = P m k) (t : ℕ)
    (r : Lat n) (a b : o) : fTr T F t r a b = kToR (fun k => T.toTau (fun m => P m k a b) t) r := by
  rw [fTr]
  simp only [kToR_apply2]
  rw [lin_kToR T.toTau hT.t_add hT.t_smul]
  congr 1
  funext k
  refine congrFun (hT.t_local _ _ fun m hm => ?_) t
  rw [hF m hm]

/-- one matrix element of the dynamic part -/
theorem dyn_value {T : Transforms} {gT : (ℤ → ℂ) → ℕ → ℂ} {beta : ℝ} {N NG L : ℕ} (hT : ConvPair T gT beta N NG L)
    (x y : ℤ → Lat n → ℂ) (w : ℤ) (hw : w ∈ window N) (k : Lat n) :
    T.toFreq (fun t => rToK (fun r => kToR (fun q => gT (fun m => x m q) t) r
        * kToR (fun q => T.toTau (fun m => y m q) t) r) k) w
      = (1 / (beta * Fintype.card (Lat n)) : ℂ) * ∑ m ∈ window N, ∑ q,
          (if |w - m| < NG then x (w - m) (k - q) else 0) * y m q := by
  simp only [rToK_mul, div_eq_inv_mul]
  rw [lin_mul T.toFreq hT.f_smul, lin_sum' T.toFreq hT.f_add hT.f_smul]
  simp only [hT.conv _ _ w hw, ← Finset.mul_sum]
  rw [Finset.sum_comm]
  rw [← mul_assoc]
  congr 1
  · rw [mul_inv]; ring
  · refine Finset.sum_congr rfl fun m _ => ?_
    rw [← Equiv.sum_comp (Equiv.subLeft k)]
    refine Finset.sum_congr rfl fun q _ => ?_
    simp only [Equiv.subLeft_apply, sub_sub_cancel]

/-- one matrix element of the constant part -/
theorem const_value {T : Transforms} {gT : (ℤ → ℂ) → ℕ → ℂ} {beta : ℝ} {N NG L : ℕ} (hT : ConvPair T gT beta N NG L)
    (x : Lat n → ℂ) (y : ℤ → Lat n → ℂ) (k : Lat n) :
    rToK (fun r => kToR x r * kToR (fun q => T.toTau (fun m => y m q) 0) r) k
      = (1 / (beta * Fintype.card (Lat n)) : ℂ) * ∑ m ∈ window N, ∑ q, x (k - q) * y m q := by
  rw [rToK_mul]
  simp only [hT.zero, Finset.mul_sum, Finset.sum_div]
  rw [Finset.sum_comm]
  refine Finset.sum_congr rfl fun m _ => ?_
  rw [← Equiv.sum_comp (Equiv.subLeft k)]
  refine Finset.sum_congr rfl fun q _ => ?_
  simp only [Equiv.subLeft_apply, sub_sub_cancel]
  rw [div_eq_mul_inv, one_div, one_div, mul_inv]
  ring

theorem rToK_const_mul (c : ℂ) (f : Lat n → ℂ) (k : Lat n) : rToK (fun r => c * f r) k = c * rToK f k := by
  simp only [rToK, fftw_one, smul_eq_mul, Finset.mul_sum]
  refine Finset.sum_congr rfl fun r _ => ?_
  ring

theorem assemble (N : ℕ) (D : ℂ) (X : ℤ → Lat n → o → o → ℂ) (P : ℤ → Lat n → o → o → ℂ) :
    ∑ c, ∑ d, -(1 / 2) * ((1 / D) * ∑ m ∈ window N, ∑ q, X m q c d * P m q d c)
      = (∑ m ∈ window N, ∑ q, ∑ c, ∑ d, -(1 / 2) * X m q c d * P m q d c) / D := by
  have e : ∑ m ∈ window N, ∑ q, ∑ c, ∑ d, -(1 / 2) * X m q c d * P m q d c
      = ∑ c, ∑ d, ∑ m ∈ window N, ∑ q, -(1 / 2) * X m q c d * P m q d c := by
    calc _ = ∑ m ∈ window N, ∑ c, ∑ d, ∑ q, -(1 / 2) * X m q c d * P m q d c := by
          refine Finset.sum_congr rfl fun m _ => ?_
          rw [Finset.sum_comm]
          exact Finset.sum_congr rfl fun c _ => Finset.sum_comm
      _ = ∑ c, ∑ m ∈ window N, ∑ d, ∑ q, -(1 / 2) * X m q c d * P m q d c := Finset.sum_comm
      _ = _ := Finset.sum_congr rfl fun c _ => Finset.sum_comm
  rw [e]
  simp only [Finset.mul_sum, Finset.sum_div]
  refine Finset.sum_congr rfl fun c _ => Finset.sum_congr rfl fun d _ => Finset.sum_congr rfl fun m _ =>
    Finset.sum_congr rfl fun q _ => ?_
  rw [div_eq_mul_inv, div_eq_mul_inv 1 D]
  ring

theorem constant_part {T : Transforms} {gT : (ℤ → ℂ) → ℕ → ℂ} {beta : ℝ} {N NG L : ℕ}
    (hT : ConvPair T gT beta N NG L) (F : ℤ × Lat n → o → o → ℂ) (P : ℤ → Lat n → o → o → ℂ)
    (hF : ∀ m ∈ window N, ∀ k, F (m, k) = P m k) (const : Lat n → T4 o) (k : Lat n) (a b : o) :
    rToK (constantGammaF (kToR const) (fTr T F)) k a b
      = (∑ m ∈ window N, ∑ q, gammaF (const (k - q)) (P m q) a b) / (beta * Fintype.card (Lat n)) := by
  rw [rToK_apply2]
  simp only [constantGammaF, gammaF, kToR_apply4, fTr_eq hT F P hF, mul_assoc (-(1 / 2) : ℂ)]
  simp only [rToK_sum, rToK_const_mul, const_value hT]
  rw [assemble N _ (fun _ q c d => const (k - q) c a d b) P]
  simp only [mul_assoc]

theorem dynamic_part {T : Transforms} {gT : (ℤ → ℂ) → ℕ → ℂ} {beta : ℝ} {N NG L : ℕ}
    (hT : ConvPair T gT beta N NG L) (F : ℤ × Lat n → o → o → ℂ) (P : ℤ → Lat n → o → o → ℂ)
    (hF : ∀ m ∈ window N, ∀ k, F (m, k) = P m k) (dyn : ℤ → Lat n → T4 o) (w : ℤ) (hw : w ∈ window N)
    (k : Lat n) (a b : o) :
    rToK (fun r => T.toFreq (fun t => gammaF (fun a b c d => gT (fun w => kToR (dyn w) r a b c d) t)
        (fTr T F t r) a b) w) k
      = (∑ m ∈ window N, ∑ q, gammaF (fun a b c d => if |w - m| < NG then dyn (w - m) (k - q) a b c d else 0)
          (P m q) a b) / (beta * Fintype.card (Lat n)) := by
  have e1 : rToK (fun r => T.toFreq (fun t => gammaF (fun a b c d => gT (fun w => kToR (dyn w) r a b c d) t)
        (fTr T F t r) a b) w) k
      = T.toFreq (fun t => rToK (fun r => gammaF (fun a b c d => gT (fun w => kToR (dyn w) r a b c d) t)
        (fTr T F t r) a b) k) w := by
    simp only [rToK, fftw_one, smul_eq_mul]
    rw [lin_sum' T.toFreq hT.f_add hT.f_smul]
    refine Finset.sum_congr rfl fun r _ => ?_
    rw [lin_mul T.toFreq hT.f_smul]
  rw [e1]
  simp only [gammaF, kToR_apply4, lin_kToR gT hT.g_add hT.g_smul, fTr_eq hT F P hF, mul_assoc (-(1 / 2) : ℂ)]
  simp only [rToK_sum, rToK_const_mul]
  rw [lin_sum' T.toFreq hT.f_add hT.f_smul]
  simp only [lin_sum' T.toFreq hT.f_add hT.f_smul, lin_mul T.toFreq hT.f_smul]
  have e2 : ∀ c d, T.toFreq (fun t => rToK (fun r => kToR (fun k => gT (fun w => dyn w k c a d b) t) r
      * kToR (fun k => T.toTau (fun m => P m k d c) t) r) k) w = _ :=
    fun c d => dyn_value hT (fun m q => dyn m q c a d b) (fun m q => P m q d c) w hw k
  simp only [e2]
  rw [assemble N _ (fun m q c d => if |w - m| < NG then dyn (w - m) (k - q) c a d b else 0) P]
  simp only [mul_assoc]

/-- C58: with transforms that turn products into convolutions the Fourier route computes the sum over the gap window
with the vertex `dynamic part on its mesh + constant part`, at every frequency of the mesh, for every lattice, number of
orbitals and number of ranks. -/
theorem C58_fft_value {ranks : ℕ} (hr : 0 < ranks) {N Ng NG L : ℕ} (hN : N ≤ Ng) {T : Transforms}
    {gT : (ℤ → ℂ) → ℕ → ℂ} {beta : ℝ} (hT : ConvPair T gT beta N NG L) {lat : List (Lat n)} (hc : Complete lat)
    (dyn : ℤ → Lat n → T4 o) (const : Lat n → T4 o) (g delta : ℤ → Lat n → o → o → ℂ) :
    ∃ out, eliashbergProductFFT ranks N Ng L L T lat (dynamicAndConstantToTr gT dyn const).1
        (dynamicAndConstantToTr gT dyn const).2 g delta = .ok out ∧
      ∀ w ∈ window N, ∀ k a b, out w k a b = sumValue beta N (fullVertex NG dyn const) g delta w k a b := by
  obtain ⟨F, hF, hval⟩ := gDeltaG_ok hr hN hc g delta
  refine ⟨_, by simp only [eliashbergProductFFT, hF, dynamicGammaF, ne_eq, not_true_eq_false, if_false]; exact rfl,
    fun w hw k a b => ?_⟩
  have hnd : ((List.range (L + 1)).product lat).Nodup := List.nodup_range.product hc.1
  have e1 : ∀ r : Lat n, T.toFreq (fun t => distributedAssign ranks ((List.range (L + 1)).product lat)
      (fun p => gammaF ((dynamicAndConstantToTr gT dyn const).1 p.1 p.2) (fTr T F p.1 p.2)) (t, r) a b) w
      = T.toFreq (fun t => gammaF (fun a b c d => gT (fun w => kToR (dyn w) r a b c d) t) (fTr T F t r) a b) w := by
    intro r
    refine congrFun (hT.f_local _ _ fun t ht => ?_) w
    rw [C02_distributedAssign ranks hr _ hnd, if_pos]
    · rfl
    · rw [List.pair_mem_product]
      exact ⟨List.mem_range.2 (by omega), hc.2 r⟩
  rw [rToK_apply2]
  simp only [e1]
  have e2 : ∀ f h : Lat n → ℂ, rToK (fun r => f r + h r) k = rToK f k + rToK h k := by
    intro f h
    simp only [rToK, fftw_one, smul_eq_mul, mul_add, Finset.sum_add_distrib]
  rw [e2, dynamic_part hT F _ hval dyn w hw]
  have e3 := constant_part hT F _ hval const k a b
  rw [rToK_apply2] at e3
  change _ + rToK (fun r => constantGammaF (kToR const) (fTr T F) r a b) k = _
  rw [e3, ← add_div, ← Finset.sum_add_distrib, sumValue]
  congr 1
  refine Finset.sum_congr rfl fun m _ => ?_
  rw [← Finset.sum_add_distrib]
  refine Finset.sum_congr rfl fun q _ => ?_
  simp only [gammaF, ← Finset.sum_add_distrib, fullVertex]
  refine Finset.sum_congr rfl fun c _ => Finset.sum_congr rfl fun d _ => ?_
  ring

/-- C58: the routine for a constant vertex gives the explicit sum with that vertex, at every frequency. -/
theorem C58_constant {ranks : ℕ} (hr : 0 < ranks) {N Ng NG L : ℕ} (hN : N ≤ Ng) {T : Transforms}
    {gT : (ℤ → ℂ) → ℕ → ℂ} {beta : ℝ} (hT : ConvPair T gT beta N NG L) {lat : List (Lat n)} (hc : Complete lat)
    (const : Lat n → T4 o) (g delta : ℤ → Lat n → o → o → ℂ) :
    eliashbergProductFFTConst ranks N Ng T lat (kToR const) g delta
      = .ok (sumValue beta N (fun _ => const) g delta) := by
  obtain ⟨F, hF, hval⟩ := gDeltaG_ok hr hN hc g delta
  rw [eliashbergProductFFTConst, hF]
  simp only
  congr 1
  funext w k a b
  rw [constant_part hT F _ hval, sumValue]

/-- C58: both routes agree on the whole mesh of the gap for a vertex whose dynamic part vanishes outside the frequencies
given to the Fourier route. -/
theorem C58_agree {ranks ranks' : ℕ} (hr : 0 < ranks) (hr' : 0 < ranks') {N Ng NG NG' L : ℕ} (hN : N ≤ Ng)
    (hG : 2 * (2 * N) ≤ 2 * NG' - 1) {T : Transforms}
    {gT : (ℤ → ℂ) → ℕ → ℂ} {beta : ℝ} (hT : ConvPair T gT beta N NG L) {lat lat' : List (Lat n)} (hc : Complete lat)
    (hc' : Complete lat') (gamma : ℤ → Lat n → T4 o) (const : Lat n → T4 o)
    (hgam : ∀ l q, (NG : ℤ) ≤ |l| → gamma l q = const q) (g delta : ℤ → Lat n → o → o → ℂ) :
    ∃ u v, eliashbergProduct ranks N Ng NG' beta lat gamma g delta = .ok u ∧
      eliashbergProductFFT ranks' N Ng L L T lat'
        (dynamicAndConstantToTr gT (fun l q a b c d => gamma l q a b c d - const q a b c d) const).1
        (dynamicAndConstantToTr gT (fun l q a b c d => gamma l q a b c d - const q a b c d) const).2 g delta = .ok v ∧
      ∀ w ∈ window N, ∀ k, u w k = v w k := by
  obtain ⟨v, hv, hval⟩ := C58_fft_value hr' hN hT hc'
    (fun l q a b c d => gamma l q a b c d - const q a b c d) const g delta
  refine ⟨_, v, eliashbergProduct_ok hr hN (by omega) beta hc gamma g delta, hv, fun w hw k => ?_⟩
  funext a b
  rw [hval w hw]
  congr 1
  funext l q a b c d
  simp only [fullVertex]
  split_ifs with h
  · ring
  · rw [hgam l q (not_lt.1 h), zero_add]

/-- C58: no vertex can be given to both routines with the time meshes created by default (`ntau` times for `N`
frequencies, an increasing function): the explicit sum requires the vertex mesh to be at least twice as long as the
mesh of the gap, the Fourier route requires equal time meshes. -/
theorem C58_exclusive (ntau : ℕ → ℕ) (hmono : StrictMono ntau) (ranks N Ng NG : ℕ) (hN : 0 < N) (beta : ℝ)
    (T : Transforms) (lat : List (Lat n)) (gamma : ℤ → Lat n → T4 o) (gdyn : ℕ → Lat n → T4 o)
    (gconst : Lat n → T4 o) (g delta : ℤ → Lat n → o → o → ℂ) :
    ¬ ((∃ u, eliashbergProduct ranks N Ng NG beta lat gamma g delta = .ok u) ∧
      ∃ v, eliashbergProductFFT ranks N Ng (ntau N) (ntau NG) T lat gdyn gconst g delta = .ok v) := by
  rintro ⟨hu, v, hv⟩
  obtain ⟨h1, h2⟩ := (C59_accepts N Ng NG beta gamma g delta).1 hu
  have h3 : ntau N < ntau NG := hmono (by omega)
  have h4 : ntau N + 1 ≠ ntau NG + 1 := by omega
  rw [eliashbergProductFFT] at hv
  split at hv
  · cases hv
  · rw [dynamicGammaF, if_pos h4] at hv
    cases hv

end Verif.Eliashberg
