import Verif.Fourier.Fit
import Verif.Fourier.FitConv

/-!
# C113: the transforms between imaginary time and Matsubara frequencies commute with complex conjugation

`cj s` is the frequency index of `-iω_m`.
-/

noncomputable section

namespace Verif.Herm

open Complex Verif.Fourier

/-- index of the opposite frequency -/
def cj : Stat → ℤ → ℤ
  | .fermion, m => -m - 1
  | .boson, m => -m

theorem cj_cj (s : Stat) (m : ℤ) : cj s (cj s m) = m := by
  cases s <;> simp only [cj] <;> ring

theorem conj_matsubara (s : Stat) (beta : ℝ) (m : ℤ) :
    matsubara s beta (cj s m) = (starRingEnd ℂ) (matsubara s beta m) := by
  cases s <;> simp [matsubara, cj, map_div₀, Complex.conj_ofNat] <;> ring

theorem conj_matsubara_neg (s : Stat) (beta : ℝ) (m : ℤ) :
    (starRingEnd ℂ) (matsubara s beta m) = -matsubara s beta m := by
  cases s <;> simp [matsubara, map_div₀, Complex.conj_ofNat]

theorem conj_poleA (s : Stat) (m1 m2 m3 : ℂ) (j : Fin 3) :
    (starRingEnd ℂ) (poleA s m1 m2 m3 j)
      = poleA s ((starRingEnd ℂ) m1) ((starRingEnd ℂ) m2) ((starRingEnd ℂ) m3) j := by
  cases s <;> fin_cases j <;> simp [poleA, map_div₀, Complex.conj_ofNat]

theorem conj_tailW (s : Stat) (m1 m2 m3 w : ℂ) :
    (starRingEnd ℂ) (tailW s m1 m2 m3 w)
      = tailW s ((starRingEnd ℂ) m1) ((starRingEnd ℂ) m2) ((starRingEnd ℂ) m3) ((starRingEnd ℂ) w) := by
  simp only [tailW, map_sum, map_div₀, map_sub, conj_poleA, conj_ofReal]

theorem conj_tailT (s : Stat) (m1 m2 m3 : ℂ) (beta tau : ℝ) :
    (starRingEnd ℂ) (tailT s m1 m2 m3 beta tau)
      = tailT s ((starRingEnd ℂ) m1) ((starRingEnd ℂ) m2) ((starRingEnd ℂ) m3) beta tau := by
  cases s <;> simp only [tailT, map_sum, oneFermion, oneBoson, map_mul, map_neg, conj_poleA, conj_ofReal]

theorem conj_firstMoment (s : Stat) (a b : ℂ) :
    (starRingEnd ℂ) (firstMoment s a b) = firstMoment s ((starRingEnd ℂ) a) ((starRingEnd ℂ) b) := by
  cases s <;> simp [firstMoment]

theorem conj_boundarySign (s : Stat) : (starRingEnd ℂ) (boundarySign s) = boundarySign s := by
  cases s <;> simp [boundarySign]

/-- C113 (time → frequency): the transform of the conjugate function is the conjugate at the opposite frequency. -/
theorem C113_tau_to_w (s : Stat) (beta : ℝ) (hb : 0 < beta) (L N : ℕ) (hL : 0 < L) (m2 m3 : ℂ) (gt : ℕ → ℂ)
    (f : ℤ → ℂ) (hf : tauToW s beta L N m2 m3 gt = .ok f) :
    ∃ f', tauToW s beta L N ((starRingEnd ℂ) m2) ((starRingEnd ℂ) m3) (fun t => (starRingEnd ℂ) (gt t)) = .ok f' ∧
      ∀ m, f' (cj s m) = (starRingEnd ℂ) (f m) := by
  unfold tauToW at hf ⊢
  split_ifs at hf with hc
  rw [if_neg hc]
  injection hf with hf
  subst hf
  refine ⟨_, rfl, fun m => ?_⟩
  have form : ∀ (x : ℕ → ℂ) (m : ℤ), fftw1 1 L (fun t => (beta / L : ℂ) * (shiftPhase s beta (tauOf beta L t) 1 * x t)) (wrap L m)
      = ∑ t ∈ Finset.range L, (beta / L : ℂ) * (exp (matsubara s beta m * tauOf beta L t) * x t) := by
    intro x m
    unfold fftw1
    refine Finset.sum_congr rfl fun t _ => ?_
    rw [← phase_eq s beta hb L hL m t]
    ring
  dsimp only
  rw [form, form, map_add, conj_tailW, conj_firstMoment, ← conj_matsubara, map_sum]
  congr 1
  refine Finset.sum_congr rfl fun t _ => ?_
  rw [map_mul, map_mul, map_sub, conj_tailT, ← exp_conj, map_mul, conj_ofReal, conj_matsubara, conj_firstMoment, map_div₀,
    conj_ofReal, conj_natCast]

/-- C113 (fit): the fitted moments of the conjugate function are the conjugate moments. -/
theorem C113_fit (s : Stat) (beta : ℝ) (L : ℕ) (gt : ℕ → ℂ) (m2 m3 : ℂ)
    (hf : fitDerivatives s beta L gt = .ok (m2, m3)) :
    fitDerivatives s beta L (fun t => (starRingEnd ℂ) (gt t)) = .ok ((starRingEnd ℂ) m2, (starRingEnd ℂ) m3) := by
  unfold fitDerivatives at hf ⊢
  split_ifs at hf with hc
  rw [if_neg hc]
  injection hf with hf
  injection hf with h2 h3
  subst h2
  subst h3
  simp only [map_sub, map_sum, map_mul, map_div₀, map_neg, map_add, conj_boundarySign, conj_ofReal, Complex.conj_ofNat, map_ratCast]

/-- C113 (time → frequency with fitted moments, `chi_wr_from_chi_tr` and `g_dynamic_sigma`). -/
theorem C113_tau_to_w_fit (s : Stat) (beta : ℝ) (hb : 0 < beta) (L N : ℕ) (hL : 0 < L) (gt : ℕ → ℂ) (f : ℤ → ℂ)
    (hf : tauToWFit s beta L N gt = .ok f) :
    ∃ f', tauToWFit s beta L N (fun t => (starRingEnd ℂ) (gt t)) = .ok f' ∧
      ∀ m, f' (cj s m) = (starRingEnd ℂ) (f m) := by
  unfold tauToWFit at hf ⊢
  split_ifs at hf with hc
  rw [if_neg hc]
  split at hf
  · cases hf
  · rename_i m2 m3 hd
    rw [C113_fit s beta L gt m2 m3 hd]
    exact C113_tau_to_w s beta hb L N hL m2 m3 gt f hf

/-! ## Frequency → time -/

theorem sum_ginStore (s : Stat) (beta : ℝ) (L : ℕ) (hL : 0 < L) (m1 m2 m3 : ℂ) (gw : ℤ → ℂ) (F : ℕ → ℂ) (l : List ℤ)
    (hl : ∀ x ∈ l, ∀ y ∈ l, |x - y| < L) (hnd : l.Nodup) (acc : ℕ → ℂ) (hacc : ∀ m ∈ l, acc (wrap L m) = 0) :
    ∑ j ∈ Finset.range L, F j * l.foldl (ginStore s beta L m1 m2 m3 gw) acc j
      = ∑ j ∈ Finset.range L, F j * acc j
        + (l.map fun m => F (wrap L m) * ((1 / beta : ℂ) * (gw m - tailW s m1 m2 m3 (matsubara s beta m)))).sum := by
  induction l generalizing acc with
  | nil => simp
  | cons x t ih =>
    have hx := List.nodup_cons.1 hnd
    rw [List.foldl_cons, ih (fun a ha b hb => hl a (List.mem_cons_of_mem _ ha) b (List.mem_cons_of_mem _ hb)) hx.2,
      List.map_cons, List.sum_cons, ← add_assoc]
    · congr 1
      have hm : wrap L x ∈ Finset.range L := Finset.mem_range.2 (wrap_lt L hL x)
      rw [← Finset.add_sum_erase _ _ hm, ← Finset.add_sum_erase _ (fun j => F j * acc j) hm, ginStore,
        Function.update_self, hacc x (by simp), mul_zero, zero_add, add_comm]
      congr 1
      refine Finset.sum_congr rfl fun j hj => ?_
      rw [Function.update_of_ne (Finset.ne_of_mem_erase hj)]
    · intro m hm
      rw [ginStore, Function.update_of_ne, hacc m (List.mem_cons_of_mem _ hm)]
      intro e
      have := wrap_inj L hL m x (hl m (List.mem_cons_of_mem _ hm) x (by simp)) e
      exact hx.1 (this ▸ hm)

theorem wIndices_nodup (s : Stat) (N : ℕ) : (wIndices s N).Nodup := by
  cases s <;>
  · refine List.Nodup.map ?_ List.nodup_range
    intro a b h
    simp only [] at h
    omega

theorem mem_wIndices_cj (s : Stat) (N : ℕ) (m : ℤ) : cj s m ∈ wIndices s N ↔ m ∈ wIndices s N := by
  have one : ∀ m, m ∈ wIndices s N → cj s m ∈ wIndices s N := by
    intro m hm
    cases s
    · simp only [wIndices, List.mem_map, List.mem_range, cj] at hm ⊢
      obtain ⟨j, hj, rfl⟩ := hm
      exact ⟨2 * N - 1 - j, by omega, by omega⟩
    · simp only [wIndices, List.mem_map, List.mem_range, cj] at hm ⊢
      obtain ⟨j, hj, rfl⟩ := hm
      exact ⟨2 * N - 2 - j, by omega, by omega⟩
  exact ⟨fun h => by have := one _ h; rwa [cj_cj] at this, one m⟩

theorem wIndices_perm (s : Stat) (N : ℕ) : ((wIndices s N).map (cj s)).Perm (wIndices s N) := by
  have hinj : Function.Injective (cj s) := fun a b h => by rw [← cj_cj s a, h, cj_cj]
  rw [List.perm_ext_iff_of_nodup ((wIndices_nodup s N).map hinj) (wIndices_nodup s N)]
  intro m
  rw [List.mem_map]
  constructor
  · rintro ⟨x, hx, rfl⟩
    exact (mem_wIndices_cj s N x).2 hx
  · intro hm
    exact ⟨cj s m, (mem_wIndices_cj s N m).2 hm, cj_cj s m⟩

/-- values of the inverse transform before the last point is overwritten -/
theorem wToTau_value (s : Stat) (beta : ℝ) (hb : 0 < beta) (L N : ℕ) (hL : 0 < L) (hN : 2 * N ≤ L) (m1 m2 m3 : ℂ)
    (gw : ℤ → ℂ) (t : ℕ) :
    fftw1 (-1) L ((wIndices s N).foldl (ginStore s beta L m1 m2 m3 gw) fun _ => 0) t * shiftPhase s beta (tauOf beta L t) (-1)
      = ((wIndices s N).map fun m => exp (-(matsubara s beta m * tauOf beta L t))
          * ((1 / beta : ℂ) * (gw m - tailW s m1 m2 m3 (matsubara s beta m)))).sum := by
  unfold fftw1
  rw [sum_ginStore s beta L hL m1 m2 m3 gw _ _ ?_ (wIndices_nodup s N) _ (fun _ _ => rfl)]
  · simp only [mul_zero, Finset.sum_const_zero, zero_add]
    rw [← List.sum_map_mul_right]
    congr 1
    refine List.map_congr_left fun m _ => ?_
    rw [exp_neg, ← phase_eq s beta hb L hL m t, mul_inv]
    have h1 : shiftPhase s beta (tauOf beta L t) (-1) = (shiftPhase s beta (tauOf beta L t) 1)⁻¹ :=
      eq_inv_of_mul_eq_one_right (shiftPhase_mul s beta (tauOf beta L t))
    have h2 : exp (((-1 : ℤ) : ℂ) * (2 * Real.pi * I * ((wrap L m : ℕ) * t / L)))
        = (exp (((1 : ℤ) : ℂ) * (2 * Real.pi * I * (t * (wrap L m : ℕ) / L))))⁻¹ := by
      rw [← exp_neg]
      congr 1
      push_cast
      ring
    rw [h1, h2]
    ring
  · intro x hx y hy
    have h1 := wIndices_bound s N x hx
    have h2 := wIndices_bound s N y hy
    rw [abs_lt]
    omega

/-- C113 (frequency → time): the inverse transform of `ω ↦ conj g(-ω)` is the conjugate function of time;  in particular
`G(-iω) = conj G(iω)` gives a real function of imaginary time. -/
theorem C113_w_to_tau (s : Stat) (beta : ℝ) (hb : 0 < beta) (L N : ℕ) (hL : 0 < L) (m1 m2 m3 : ℂ) (gw gw' : ℤ → ℂ)
    (hg : ∀ m ∈ wIndices s N, gw' (cj s m) = (starRingEnd ℂ) (gw m)) (f : ℕ → ℂ)
    (hf : wToTau s beta L N m1 m2 m3 gw = .ok f) :
    wToTau s beta L N ((starRingEnd ℂ) m1) ((starRingEnd ℂ) m2) ((starRingEnd ℂ) m3) gw'
      = .ok fun t => (starRingEnd ℂ) (f t) := by
  unfold wToTau at hf ⊢
  split_ifs at hf with hc
  rw [if_neg hc]
  injection hf with hf
  subst hf
  have key : ∀ t, fftw1 (-1) L ((wIndices s N).foldl (ginStore s beta L ((starRingEnd ℂ) m1) ((starRingEnd ℂ) m2)
        ((starRingEnd ℂ) m3) gw') fun _ => 0) t * shiftPhase s beta (tauOf beta L t) (-1)
      = (starRingEnd ℂ) (fftw1 (-1) L ((wIndices s N).foldl (ginStore s beta L m1 m2 m3 gw) fun _ => 0) t
          * shiftPhase s beta (tauOf beta L t) (-1)) := by
    intro t
    rw [wToTau_value s beta hb L N hL (by omega), wToTau_value s beta hb L N hL (by omega), map_list_sum, List.map_map,
      ← (List.Perm.map _ (wIndices_perm s N)).sum_eq, List.map_map]
    congr 1
    refine List.map_congr_left fun m hm => ?_
    simp only [Function.comp_apply]
    rw [hg m hm, conj_matsubara, map_mul, ← exp_conj, map_neg, map_mul, conj_ofReal, map_mul, map_sub, conj_tailW, map_div₀,
      map_one, conj_ofReal]
  refine congrArg Except.ok (funext fun t => ?_)
  by_cases ht : t = L
  · subst ht
    simp only [Function.update_self]
    rw [map_mul, conj_boundarySign, map_add, map_add, key 0, conj_tailT]
  · simp only [Function.update_of_ne ht]
    rw [map_add, key t, conj_tailT]

/-- C113: a function with `g(-iω) = conj g(iω)` and real moments is real in imaginary time. -/
theorem C113_w_to_tau_real (s : Stat) (beta : ℝ) (hb : 0 < beta) (L N : ℕ) (hL : 0 < L) (m1 m2 m3 : ℝ) (gw : ℤ → ℂ)
    (hg : ∀ m ∈ wIndices s N, gw (cj s m) = (starRingEnd ℂ) (gw m)) (f : ℕ → ℂ)
    (hf : wToTau s beta L N m1 m2 m3 gw = .ok f) (t : ℕ) : (f t).im = 0 := by
  have h := C113_w_to_tau s beta hb L N hL m1 m2 m3 gw gw hg f hf
  rw [conj_ofReal, conj_ofReal, conj_ofReal, hf] at h
  injection h with h
  exact conj_eq_iff_im.1 (congrFun h t).symm

/-- C113: a real function of imaginary time has `g(-iω) = conj g(iω)`. -/
theorem C113_tau_to_w_real (s : Stat) (beta : ℝ) (hb : 0 < beta) (L N : ℕ) (hL : 0 < L) (gt : ℕ → ℝ) (f : ℤ → ℂ)
    (hf : tauToWFit s beta L N (fun t => (gt t : ℂ)) = .ok f) (m : ℤ) : f (cj s m) = (starRingEnd ℂ) (f m) := by
  obtain ⟨f', h1, h2⟩ := C113_tau_to_w_fit s beta hb L N hL _ f hf
  simp only [conj_ofReal] at h1
  rw [hf] at h1
  injection h1 with h1
  subst h1
  exact h2 m

/-- the hypotheses on a mesh of eight intervals and one frequency pair, with a function that is not constant -/
example : ∃ f g, tauToWFit .fermion 1 8 1 (fun t => ((t : ℝ) : ℂ)) = .ok f ∧
    wToTau .fermion 1 8 1 1 0 0 (fun m => matsubara .fermion 1 m) = .ok g ∧
    ∀ m ∈ wIndices .fermion 1, matsubara .fermion 1 (cj .fermion m) = (starRingEnd ℂ) (matsubara .fermion 1 m) :=
  ⟨_, _, rfl, rfl, fun m _ => conj_matsubara .fermion 1 m⟩

end Verif.Herm
