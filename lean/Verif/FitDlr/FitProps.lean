import Verif.FitDlr.Fit
import Verif.FitDlr.Props
import Verif.HartreeFock.Model
import Mathlib.Analysis.SpecialFunctions.ExpDeriv
import Mathlib.Analysis.Calculus.Deriv.Mul
import Mathlib.Analysis.Calculus.Deriv.Add
import Mathlib.Analysis.Complex.RealDeriv

/-!
# C102: what the constraints of the fit mean for the Green's function
-/

noncomputable section

set_option linter.unusedSectionVars false

namespace Verif.FitDlr

open Verif.Symmetries (triu tril mem_triu mem_tril)

/-! ### Sums over flattened indices -/

theorem sum_range_mul {M : Type*} [AddCommMonoid M] (k n : ℕ) (f : ℕ → M) :
    ∑ m ∈ Finset.range (k * n), f m = ∑ x ∈ Finset.range k, ∑ t ∈ Finset.range n, f (x * n + t) := by
  induction k with
  | zero => simp
  | succ k ih => rw [Nat.succ_mul, Finset.sum_range_add, ih, Finset.sum_range_succ]

theorem divmod (x t n : ℕ) (ht : t < n) : (x * n + t) / n = x ∧ (x * n + t) % n = t := by
  have hn : 0 < n := by omega
  constructor
  · rw [mul_comm, Nat.mul_add_div hn, Nat.div_eq_of_lt ht, add_zero]
  · rw [mul_comm, Nat.mul_add_mod, Nat.mod_eq_of_lt ht]

theorem gather_dot (nx : ℕ) (idx : List (ℕ × ℕ)) (A g : Arr) (f : ℂ → ℝ) (f' : ℂ → ℝ) :
    ∑ m ∈ Finset.range (nx * idx.length), f ((gather nx idx A).get m) * f' ((gather nx idx g).get m)
      = ∑ x ∈ Finset.range nx, ∑ t ∈ Finset.range idx.length,
        f (A x (idx.getD t (0, 0)).1 (idx.getD t (0, 0)).2) * f' (g x (idx.getD t (0, 0)).1 (idx.getD t (0, 0)).2) := by
  rw [sum_range_mul]
  refine Finset.sum_congr rfl fun x _ => Finset.sum_congr rfl fun t ht => ?_
  obtain ⟨h1, h2⟩ := divmod x t idx.length (Finset.mem_range.1 ht)
  simp only [gather, h1, h2]

theorem split_dot (xd xu yd yu : Vec) (hd : xd.len = yd.len) (hu : xu.len = yu.len) :
    ∑ m ∈ Finset.range (yd.len + yu.len + yu.len), (splitReIm xd xu).get m * (splitReIm yd yu).get m
      = ∑ m ∈ Finset.range yd.len, (xd.get m).re * (yd.get m).re
        + ∑ m ∈ Finset.range yu.len, (xu.get m).re * (yu.get m).re
        + ∑ m ∈ Finset.range yu.len, (xu.get m).im * (yu.get m).im := by
  rw [Finset.sum_range_add, Finset.sum_range_add]
  congr 1
  · congr 1
    · refine Finset.sum_congr rfl fun m hm => ?_
      have hm := Finset.mem_range.1 hm
      simp only [splitReIm, hd, if_pos hm]
    · refine Finset.sum_congr rfl fun m hm => ?_
      have hm := Finset.mem_range.1 hm
      have a1 : ¬ yd.len + m < yd.len := by omega
      have a2 : yd.len + m < yd.len + yu.len := by omega
      simp only [splitReIm, hd, hu, if_neg a1, if_pos a2, Nat.add_sub_cancel_left]
  · refine Finset.sum_congr rfl fun m hm => ?_
    have hm := Finset.mem_range.1 hm
    have a1 : ¬ yd.len + yu.len + m < yd.len := by omega
    have a2 : ¬ yd.len + yu.len + m < yd.len + yu.len := by omega
    have a3 : yd.len + yu.len + m - yd.len - yu.len = m := by omega
    simp only [splitReIm, hd, hu, if_neg a1, if_neg a2, a3]

/-- the product of a constraint row with the parameters, in terms of the Green's function -/
theorem dot_eq {nx no : ℕ} (A g : Arr) (x : RVec) (hlen : (Symmetrizer.fitXFromG nx no g).len = x.len)
    (hx : ∀ m < x.len, (Symmetrizer.fitXFromG nx no g).get m = x.get m) :
    dot (Symmetrizer.fitXFromG nx no A) x = ∑ y ∈ Finset.range nx, ((∑ i ∈ Finset.range no, (A y i i).re * (g y i i).re)
      + ∑ t ∈ Finset.range (triu no).length, ((A y ((triu no).getD t (0, 0)).1 ((triu no).getD t (0, 0)).2).re
          * (g y ((triu no).getD t (0, 0)).1 ((triu no).getD t (0, 0)).2).re
        + (A y ((triu no).getD t (0, 0)).1 ((triu no).getD t (0, 0)).2).im
          * (g y ((triu no).getD t (0, 0)).1 ((triu no).getD t (0, 0)).2).im)) := by
  have h1 : dot (Symmetrizer.fitXFromG nx no A) x
      = ∑ m ∈ Finset.range (Symmetrizer.fitXFromG nx no g).len,
        (Symmetrizer.fitXFromG nx no A).get m * (Symmetrizer.fitXFromG nx no g).get m := by
    rw [hlen]
    exact Finset.sum_congr rfl fun m hm => by rw [hx m (Finset.mem_range.1 hm)]
  have h2 := split_dot (Symmetrizer.getXD nx no A) (Symmetrizer.getXU nx no A) (Symmetrizer.getXD nx no g)
    (Symmetrizer.getXU nx no g) rfl rfl
  have h3 := gather_dot nx (diag no) A g Complex.re Complex.re
  have h4 := gather_dot nx (triu no) A g Complex.re Complex.re
  have h5 := gather_dot nx (triu no) A g Complex.im Complex.im
  refine h1.trans (h2.trans ?_)
  refine (congrArg₂ (· + ·) (congrArg₂ (· + ·) h3 h4) h5).trans ?_
  rw [← Finset.sum_add_distrib, ← Finset.sum_add_distrib]
  refine Finset.sum_congr rfl fun y _ => ?_
  rw [add_assoc, ← Finset.sum_add_distrib, length_diag]
  congr 1
  refine Finset.sum_congr rfl fun i hi => ?_
  have hi := Finset.mem_range.1 hi
  have : (diag no).getD i (0, 0) = (i, i) := by
    rw [List.getD_eq_getElem _ _ (by rw [length_diag]; exact hi)]
    simp [diag]
  rw [this]

/-! ### The jump -/

theorem dot_diag {nx no : ℕ} (g : Arr) (x : RVec) (hlen : (Symmetrizer.fitXFromG nx no g).len = x.len)
    (hx : ∀ m < x.len, (Symmetrizer.fitXFromG nx no g).get m = x.get m) (i : ℕ) (hi : i < no) :
    dot (Symmetrizer.fitXFromG nx no (unitArr i i 1)) x = ∑ y ∈ Finset.range nx, (g y i i).re := by
  rw [dot_eq _ g x hlen hx]
  refine Finset.sum_congr rfl fun y _ => ?_
  have h1 : ∑ j ∈ Finset.range no, (unitArr i i 1 y j j).re * (g y j j).re = (g y i i).re := by
    rw [Finset.sum_eq_single i]
    · simp [unitArr]
    · intro j _ hj
      simp [unitArr, hj]
    · intro h
      exact absurd (Finset.mem_range.2 hi) h
  rw [h1, Finset.sum_eq_zero, add_zero]
  intro t ht
  have hm := (mem_triu no _).1 (getD_mem (Finset.mem_range.1 ht) (0, 0))
  have hne : ¬ (((triu no).getD t (0, 0)).1 = i ∧ ((triu no).getD t (0, 0)).2 = i) := by omega
  simp only [unitArr, if_neg hne, Complex.zero_re, Complex.zero_im, zero_mul, add_zero]

theorem dot_triu {nx no : ℕ} (g : Arr) (x : RVec) (hlen : (Symmetrizer.fitXFromG nx no g).len = x.len)
    (hx : ∀ m < x.len, (Symmetrizer.fitXFromG nx no g).get m = x.get m) (u : ℕ × ℕ) (hu : u ∈ triu no) (v : ℂ) :
    dot (Symmetrizer.fitXFromG nx no (unitArr u.1 u.2 v)) x
      = ∑ y ∈ Finset.range nx, (v.re * (g y u.1 u.2).re + v.im * (g y u.1 u.2).im) := by
  rw [dot_eq _ g x hlen hx]
  refine Finset.sum_congr rfl fun y _ => ?_
  have hu' := (mem_triu no u).1 hu
  have h1 : ∑ j ∈ Finset.range no, (unitArr u.1 u.2 v y j j).re * (g y j j).re = 0 := by
    refine Finset.sum_eq_zero fun j _ => ?_
    have : ¬ (j = u.1 ∧ j = u.2) := by omega
    simp only [unitArr, if_neg this, Complex.zero_re, zero_mul]
  rw [h1, zero_add, Finset.sum_eq_single ((triu no).idxOf u)]
  · rw [getD_idxOf hu]
    simp [unitArr]
  · intro t ht hne
    have : ¬ (((triu no).getD t (0, 0)).1 = u.1 ∧ ((triu no).getD t (0, 0)).2 = u.2) := by
      rintro ⟨e1, e2⟩
      apply hne
      rw [← idxOf_getD (triu_nodup no) (Finset.mem_range.1 ht) (0, 0), Prod.ext e1 e2]
    simp only [unitArr, if_neg this, Complex.zero_re, Complex.zero_im, zero_mul, add_zero]
  · intro h
    exact absurd (Finset.mem_range.2 (List.idxOf_lt_length_of_mem hu)) h

/-- one of the two drivers of the module -/
def IsDriver (β : ℝ) (d : Driver) : Prop := (∃ w, d = triqsDriver β w) ∨ ∃ w, d = pydlrDriver β w

theorem triqsKernel_deriv (β : ℝ) (w : ℕ → ℝ) (x : ℕ) (τ : ℝ) :
    HasDerivAt (triqsKernel β w x) (-(triqsKernel β w x τ) * w x / β) τ := by
  have h1 : HasDerivAt (fun τ : ℝ => -(τ / β) * w x) (-(1 / β) * w x) τ :=
    (((hasDerivAt_id τ).div_const β).neg).mul_const (w x)
  have h2 := ((h1.exp).neg).div_const (1 + Real.exp (-w x))
  refine h2.congr_deriv ?_
  unfold triqsKernel
  ring

theorem pydlrKernel_deriv (β w τ : ℝ) :
    HasDerivAt (fun τ => pydlrKernel (τ / β) w) (pydlrKernel (τ / β) w * (-w / β)) τ := by
  have h1 : HasDerivAt (fun τ : ℝ => -(τ / β) * w) (-(1 / β) * w) τ :=
    (((hasDerivAt_id τ).div_const β).neg).mul_const w
  have h2 := (h1.exp).div_const (1 + Real.exp (-w))
  refine h2.congr_deriv ?_
  unfold pydlrKernel
  ring

/-- the basis functions of the drivers -/
theorem driver_kernel {β : ℝ} (hβ : β ≠ 0) {d : Driver} (hd : IsDriver β d) (x : ℕ) :
    d.rho x = -d.kernel x β ∧ d.bound * (d.kernel x 0 + d.kernel x β) = -1 ∧ d.bound * d.bound = 1 ∧
      Differentiable ℝ (d.kernel x) ∧ d.dK x = deriv (d.kernel x) 0 + deriv (d.kernel x) β := by
  have hpos : ∀ y : ℝ, (1 + Real.exp (-y)) ≠ 0 := fun y => by positivity
  rcases hd with ⟨w, rfl⟩ | ⟨w, rfl⟩
  · refine ⟨rfl, ?_, by simp [triqsDriver], fun τ => (triqsKernel_deriv β w x τ).differentiableAt, ?_⟩
    · have := hpos (w x)
      simp only [triqsDriver, triqsKernel, zero_div, neg_zero, zero_mul, Real.exp_zero, div_self hβ, neg_mul, one_mul]
      field_simp
      ring
    · change _ = deriv (triqsKernel β w x) 0 + deriv (triqsKernel β w x) β
      rw [(triqsKernel_deriv β w x 0).deriv, (triqsKernel_deriv β w x β).deriv]
      simp only [triqsDriver]
      ring
  · refine ⟨?_, ?_, by simp [pydlrDriver], fun τ => (pydlrKernel_deriv β (w x) τ).differentiableAt, ?_⟩
    · simp [pydlrDriver, div_self hβ]
    · have := hpos (w x)
      simp only [pydlrDriver, pydlrKernel, zero_div, neg_zero, zero_mul, Real.exp_zero, div_self hβ, neg_mul, one_mul]
      field_simp
    · change _ = deriv (fun τ => pydlrKernel (τ / β) (w x)) 0 + deriv (fun τ => pydlrKernel (τ / β) (w x)) β
      rw [(pydlrKernel_deriv β (w x) 0).deriv, (pydlrKernel_deriv β (w x) β).deriv, zero_div, div_self hβ]
      rfl

/-- C102, drivers: for both libraries the numbers the driver prepares give the density matrix `-G(beta)`, the sum of the slopes at
the two ends and the jump of the Green's function with any coefficients. -/
theorem C102_drivers {β : ℝ} (hβ : β ≠ 0) {d : Driver} (hd : IsDriver β d) (nx : ℕ) (g : Arr) (a b : ℕ) :
    ∑ x ∈ Finset.range nx, (d.rho x : ℂ) * g x a b = -d.eval nx g β a b ∧
    ∑ x ∈ Finset.range nx, (d.dK x : ℂ) * g x a b
      = deriv (fun τ => d.eval nx g τ a b) 0 + deriv (fun τ => d.eval nx g τ a b) β ∧
    d.eval nx g 0 a b + d.eval nx g β a b = -d.bound * ∑ x ∈ Finset.range nx, g x a b := by
  have hk := driver_kernel hβ hd
  have hder : ∀ τ, deriv (fun τ => d.eval nx g τ a b) τ = ∑ x ∈ Finset.range nx, ((deriv (d.kernel x) τ : ℝ) : ℂ) * g x a b := by
    intro τ
    refine HasDerivAt.deriv ?_
    refine HasDerivAt.fun_sum fun x _ => ?_
    exact (((hk x).2.2.2.1 τ).hasDerivAt.ofReal_comp).mul_const (g x a b)
  refine ⟨?_, ?_, ?_⟩
  · unfold Driver.eval
    rw [← Finset.sum_neg_distrib]
    refine Finset.sum_congr rfl fun x _ => ?_
    rw [(hk x).1, Complex.ofReal_neg, neg_mul]
  · rw [hder, hder, ← Finset.sum_add_distrib]
    refine Finset.sum_congr rfl fun x _ => ?_
    rw [(hk x).2.2.2.2, Complex.ofReal_add, add_mul]
  · unfold Driver.eval
    rw [← Finset.sum_add_distrib, Finset.mul_sum]
    refine Finset.sum_congr rfl fun x _ => ?_
    rw [← add_mul, ← Complex.ofReal_add]
    congr 1
    have h1 := (hk x).2.1
    have h2 := (hk x).2.2.1
    have h3 : d.kernel x 0 + d.kernel x β = -d.bound := by
      calc d.kernel x 0 + d.kernel x β = d.bound * d.bound * (d.kernel x 0 + d.kernel x β) := by rw [h2, one_mul]
        _ = d.bound * (d.bound * (d.kernel x 0 + d.kernel x β)) := by ring
        _ = -d.bound := by rw [h1]; ring
    rw [h3, Complex.ofReal_neg]

/-- The Green's function of a parameter vector -/
theorem fit_ok {nx no : ℕ} {x : RVec} (hx : x.len = nx * (no + 2 * (no * (no - 1) / 2))) :
    ∃ g, Symmetrizer.fitGFromX nx no x = .ok g ∧ (Symmetrizer.fitXFromG nx no g).len = x.len ∧
      (∀ m < x.len, (Symmetrizer.fitXFromG nx no g).get m = x.get m) ∧
      (∀ y i, i < no → (g y i i).im = 0) ∧
      (∀ l ∈ tril no, ∀ u, (triu no).getD ((tril no).idxOf l) (0, 0) = u →
        (u ∈ triu no → ∀ y, g y l.1 l.2 = (starRingEnd ℂ) (g y u.1 u.2)) ∧ (u ∉ triu no → ∀ y, g y l.1 l.2 = 0)) ∧
      (no ≤ 3 → Hermitian nx no g) := by
  obtain ⟨g, hg, hlen, hread⟩ := C45_fit_roundtrip hx
  set N := no * (no - 1) / 2 with hN
  have hl : x.len = nx * no + 2 * (nx * N) := by rw [hx]; ring
  have hmin : min (nx * no) x.len = nx * no := by omega
  have hrest : x.len - nx * no = 2 * (nx * N) := by omega
  have hhalf : (2 * (nx * N)) / 2 = nx * N := by omega
  have hmerge : mergeReIm nx no x = .ok (⟨nx * no, fun m => x.get m⟩,
      ⟨nx * N, fun m => x.get (nx * no + m) + Complex.I * x.get (nx * no + nx * N + m)⟩) := by
    unfold mergeReIm
    simp only [hmin, hrest, hhalf]
    rw [if_pos (by omega)]
  have hgx : Symmetrizer.gFromX nx no ⟨nx * no, fun m => x.get m⟩
      ⟨nx * N, fun m => x.get (nx * no + m) + Complex.I * x.get (nx * no + nx * N + m)⟩ = .ok g := by
    rw [← hg]
    unfold Symmetrizer.fitGFromX
    rw [hmerge]
    rfl
  obtain ⟨g', hg', h1, h2, h3⟩ := Symmetrizer.gFromX_ok (nx := nx) (no := no) (xd := ⟨nx * no, fun m => x.get m⟩)
    (xu := ⟨nx * N, fun m => x.get (nx * no + m) + Complex.I * x.get (nx * no + nx * N + m)⟩) rfl rfl
  have hgg : g' = g := Except.ok.inj (hg'.symm.trans hgx)
  subst hgg
  refine ⟨g', hg, hlen, hread, ?_, ?_, ?_⟩
  · intro y i hi
    rw [h1 y i hi]
    exact Complex.ofReal_im _
  · rintro l hlm _ rfl
    refine ⟨fun hu y => ?_, fun hu y => ?_⟩
    · rw [h3 y l hlm, h2 y _ hu]
      simp only [if_pos hu]
    · rw [h3 y l hlm]
      simp only [if_neg hu, map_zero]
  · intro hno
    obtain ⟨g'', hg'', hherm⟩ := C45_hermitian_partial (nx := nx) hno (xd := ⟨nx * no, fun m => x.get m⟩)
      (xu := ⟨nx * N, fun m => x.get (nx * no + m) + Complex.I * x.get (nx * no + nx * N + m)⟩) rfl rfl
      (fun m _ => Complex.conj_ofReal _)
    have hgg : g'' = g' := Except.ok.inj (hg''.symm.trans hgx)
    rwa [← hgg]

/-- the rows of the jump constraints, in terms of the Green's function -/
theorem jump_iff {d : Driver} {nx no : ℕ} (g : Arr) (x : RVec) (hlen : (Symmetrizer.fitXFromG nx no g).len = x.len)
    (hx : ∀ m < x.len, (Symmetrizer.fitXFromG nx no g).get m = x.get m) :
    (∀ c ∈ jumpConstraints d nx no, dot c.1 x = c.2) ↔
      (∀ i < no, (∑ y ∈ Finset.range nx, g y i i).re = d.bound) ∧
      ∀ u ∈ triu no, ∑ y ∈ Finset.range nx, g y u.1 u.2 = 0 := by
  have hrow : (∀ c ∈ jumpConstraints d nx no, dot c.1 x = c.2) ↔
      (∀ i < no, dot (Symmetrizer.fitXFromG nx no (unitArr i i 1)) x = d.bound) ∧
      ∀ u ∈ triu no, dot (Symmetrizer.fitXFromG nx no (unitArr u.1 u.2 1)) x = 0 ∧
        dot (Symmetrizer.fitXFromG nx no (unitArr u.1 u.2 Complex.I)) x = 0 := by
    unfold jumpConstraints
    simp only [List.mem_append, List.mem_map, List.mem_range, List.mem_flatMap, List.mem_cons, List.not_mem_nil, or_false]
    constructor
    · intro h
      exact ⟨fun i hi => h _ (.inl ⟨i, hi, rfl⟩), fun u hu => ⟨h _ (.inr ⟨u, hu, .inl rfl⟩), h _ (.inr ⟨u, hu, .inr rfl⟩)⟩⟩
    · rintro ⟨h1, h2⟩ c (⟨i, hi, rfl⟩ | ⟨u, hu, rfl | rfl⟩)
      · exact h1 i hi
      · exact (h2 u hu).1
      · exact (h2 u hu).2
  rw [hrow]
  refine and_congr ?_ ?_
  · refine forall₂_congr fun i hi => ?_
    rw [dot_diag g x hlen hx i hi, Complex.re_sum]
  · refine forall₂_congr fun u hu => ?_
    rw [dot_triu g x hlen hx u hu, dot_triu g x hlen hx u hu, Complex.ext_iff, Complex.re_sum, Complex.im_sum]
    simp

theorem cases_index (no : ℕ) {P : ℕ → ℕ → Prop} (hd : ∀ i < no, P i i) (hu : ∀ u ∈ triu no, P u.1 u.2)
    (hl : ∀ l ∈ tril no, P l.1 l.2) (a b : ℕ) (ha : a < no) (hb : b < no) : P a b := by
  rcases lt_trichotomy a b with h | h | h
  · exact hu (a, b) ((mem_triu no _).2 ⟨ha, hb, h⟩)
  · exact h ▸ hd a ha
  · exact hl (a, b) ((mem_tril no _).2 ⟨ha, hb, h⟩)

/-- sums of coefficients fixed above and on the diagonal give the jump in all components -/
theorem jump_all {β : ℝ} (hβ : β ≠ 0) {d : Driver} (hd : IsDriver β d) {nx no : ℕ} {g : Arr}
    (him : ∀ y i, i < no → (g y i i).im = 0)
    (hlow : ∀ l ∈ tril no, ∀ u, (triu no).getD ((tril no).idxOf l) (0, 0) = u →
        (u ∈ triu no → ∀ y, g y l.1 l.2 = (starRingEnd ℂ) (g y u.1 u.2)) ∧ (u ∉ triu no → ∀ y, g y l.1 l.2 = 0))
    (h1 : ∀ i < no, (∑ y ∈ Finset.range nx, g y i i).re = d.bound)
    (h2 : ∀ u ∈ triu no, ∑ y ∈ Finset.range nx, g y u.1 u.2 = 0) :
    (∀ a b, a < no → b < no → d.eval nx g 0 a b + d.eval nx g β a b = if a = b then -1 else 0) ∧
      normRes d nx no g = 0 := by
  have hsum : ∀ a b, a < no → b < no → ∑ y ∈ Finset.range nx, g y a b = if a = b then (d.bound : ℂ) else 0 := by
    refine cases_index no (P := fun a b => ∑ y ∈ Finset.range nx, g y a b = if a = b then (d.bound : ℂ) else 0) ?_ ?_ ?_
    · intro i hi
      rw [if_pos rfl]
      refine Complex.ext ?_ ?_
      · rw [h1 i hi, Complex.ofReal_re]
      · rw [Complex.im_sum, Complex.ofReal_im]
        exact Finset.sum_eq_zero fun y _ => him y i hi
    · intro u hu
      have := (mem_triu no u).1 hu
      rw [if_neg (by omega), h2 u hu]
    · intro l hl
      have := (mem_tril no l).1 hl
      rw [if_neg (by omega)]
      obtain ⟨hl1, hl2⟩ := hlow l hl _ rfl
      by_cases hu : (triu no).getD ((tril no).idxOf l) (0, 0) ∈ triu no
      · simp only [hl1 hu]
        rw [← map_sum, h2 _ hu, map_zero]
      · exact Finset.sum_eq_zero fun y _ => hl2 hu y
  refine ⟨?_, ?_⟩
  · intro a b ha hb
    rw [(C102_drivers hβ hd nx g a b).2.2, hsum a b ha hb]
    have hbb := (driver_kernel hβ hd 0).2.2.1
    split_ifs
    · rw [neg_mul, ← Complex.ofReal_mul, hbb, Complex.ofReal_one]
    · rw [mul_zero]
  · unfold normRes
    refine le_antisymm (Finset.sup_le ?_) zero_le
    rintro ⟨a, b⟩ hab
    obtain ⟨ha, hb⟩ := Finset.mem_product.1 hab
    refine le_of_eq (nnnorm_eq_zero.2 ?_)
    simp only [norm]
    rw [hsum a b (Finset.mem_range.1 ha) (Finset.mem_range.1 hb)]
    split_ifs <;> simp

/-- C102, the jump: with the constraint on, every parameter vector that meets it gives a Green's function with
`G(0) + G(beta) = -1` in all components, for every number of orbitals, and the reported `norm_res` is zero. -/
theorem C102_jump {β : ℝ} (hβ : β ≠ 0) {d : Driver} (hd : IsDriver β d) {nx no : ℕ} {x : RVec}
    (hx : x.len = nx * (no + 2 * (no * (no - 1) / 2))) {h : ℕ → ℕ → ℂ} {U : Arr4} {pos dens : Bool}
    (hf : Feasible d nx no h U pos true dens x) :
    ∃ g, Symmetrizer.fitGFromX nx no x = .ok g ∧
      (∀ a b, a < no → b < no → d.eval nx g 0 a b + d.eval nx g β a b = if a = b then -1 else 0) ∧
      normRes d nx no g = 0 := by
  obtain ⟨g, hg, hlen, hread, him, hlow, -⟩ := fit_ok hx
  obtain ⟨h1, h2⟩ := (jump_iff g x hlen hread).1 (hf.2.1 rfl)
  exact ⟨g, hg, jump_all hβ hd him hlow h1 h2⟩

/-! ### The density -/

/-- the matrix of the density constraint -/
theorem densityMat_eq (d : Driver) (nx no : ℕ) (U : Arr4) (g : Arr) (a b : ℕ) (ha : a < no) (hb : b < no) :
    densityMat d nx no U g a b = ∑ x ∈ Finset.range nx, (d.dK x : ℂ) * g x a b
      + ∑ c ∈ Finset.range no, ∑ e ∈ Finset.range no, U b a c e * ∑ x ∈ Finset.range nx, (d.rho x : ℂ) * g x c e := by
  have hno : 0 < no := by omega
  obtain ⟨n1, n2⟩ := divmod a b no hb
  have hlt : ∀ c e, c < no → e < no → c * no + e < no * no := by
    intro c e hc he
    calc c * no + e < c * no + no := by omega
      _ = (c + 1) * no := by ring
      _ ≤ no * no := Nat.mul_le_mul_right _ hc
  have hterm : ∀ x c e, c < no → e < no → (dKMat d no (a * no + b) (x * (no * no) + (c * no + e))
      - uMat d no U (a * no + b) (x * (no * no) + (c * no + e))) * flat no g (x * (no * no) + (c * no + e))
      = (if c = a ∧ e = b then (d.dK x : ℂ) * g x c e else 0) + U b a c e * (d.rho x * g x c e) := by
    intro x c e hc he
    obtain ⟨m1, m2⟩ := divmod x (c * no + e) (no * no) (hlt c e hc he)
    obtain ⟨m3, m4⟩ := divmod c e no he
    have hiff : a * no + b = c * no + e ↔ c = a ∧ e = b := by
      constructor
      · intro h
        rw [h, m3] at n1
        rw [h, m4] at n2
        exact ⟨n1, n2⟩
      · rintro ⟨rfl, rfl⟩
        rfl
    simp only [dKMat, uMat, flat, m1, m2, m3, m4, n1, n2, hiff]
    split_ifs <;> ring
  unfold densityMat
  rw [sum_range_mul]
  have h1 : ∀ x, ∑ t ∈ Finset.range (no * no), (dKMat d no (a * no + b) (x * (no * no) + t)
      - uMat d no U (a * no + b) (x * (no * no) + t)) * flat no g (x * (no * no) + t)
      = (d.dK x : ℂ) * g x a b + ∑ c ∈ Finset.range no, ∑ e ∈ Finset.range no, U b a c e * (d.rho x * g x c e) := by
    intro x
    rw [sum_range_mul]
    have h2 : ∀ c ∈ Finset.range no, ∑ e ∈ Finset.range no, (dKMat d no (a * no + b) (x * (no * no) + (c * no + e))
        - uMat d no U (a * no + b) (x * (no * no) + (c * no + e))) * flat no g (x * (no * no) + (c * no + e))
        = ∑ e ∈ Finset.range no, ((if c = a ∧ e = b then (d.dK x : ℂ) * g x c e else 0) + U b a c e * (d.rho x * g x c e)) :=
      fun c hc => Finset.sum_congr rfl fun e he => hterm x c e (Finset.mem_range.1 hc) (Finset.mem_range.1 he)
    rw [Finset.sum_congr rfl h2]
    simp only [Finset.sum_add_distrib]
    congr 1
    rw [Finset.sum_eq_single a, Finset.sum_eq_single b]
    · simp
    · intro e _ he
      simp [he]
    · intro h
      exact absurd (Finset.mem_range.2 hb) h
    · intro c _ hc
      simp [hc]
    · intro h
      exact absurd (Finset.mem_range.2 ha) h
  simp only [h1, Finset.sum_add_distrib]
  congr 1
  rw [Finset.sum_comm]
  refine Finset.sum_congr rfl fun c _ => ?_
  rw [Finset.sum_comm]
  refine Finset.sum_congr rfl fun e _ => ?_
  rw [Finset.mul_sum]

/-- equality of the compared vectors -/
theorem matVec_iff (no : ℕ) (M M' : ℕ → ℕ → ℂ) :
    (∀ m < (matVec no M).len, (matVec no M).get m = (matVec no M').get m) ↔
      (∀ i < no, (M i i).re = (M' i i).re) ∧ ∀ u ∈ triu no, M u.1 u.2 = M' u.1 u.2 := by
  have hdl : ∀ M : ℕ → ℕ → ℂ, (Symmetrizer.getXD 1 no fun _ => M).len = no := fun M => by
    simp [Symmetrizer.getXD, gather, length_diag]
  have hul : ∀ M : ℕ → ℕ → ℂ, (Symmetrizer.getXU 1 no fun _ => M).len = (triu no).length := fun M => by
    simp [Symmetrizer.getXU, gather]
  have hdg : ∀ (M : ℕ → ℕ → ℂ) i, i < no → (Symmetrizer.getXD 1 no fun _ => M).get i = M i i := by
    intro M i hi
    have : (diag no).getD i (0, 0) = (i, i) := by
      rw [List.getD_eq_getElem _ _ (by rw [length_diag]; exact hi)]
      simp [diag]
    simp only [Symmetrizer.getXD, gather, length_diag, Nat.mod_eq_of_lt hi, this]
  have hug : ∀ (M : ℕ → ℕ → ℂ) t, t < (triu no).length → (Symmetrizer.getXU 1 no fun _ => M).get t
      = M ((triu no).getD t (0, 0)).1 ((triu no).getD t (0, 0)).2 := by
    intro M t ht
    simp only [Symmetrizer.getXU, gather, Nat.mod_eq_of_lt ht]
  constructor
  · intro h
    simp only [matVec, splitReIm, hdl, hul] at h
    refine ⟨fun i hi => ?_, fun u hu => ?_⟩
    · have := h i (by omega)
      rw [if_pos hi, if_pos hi, hdg M i hi, hdg M' i hi] at this
      exact this
    · obtain ⟨t, ht, hut⟩ : ∃ t < (triu no).length, (triu no).getD t (0, 0) = u :=
        ⟨_, List.idxOf_lt_length_of_mem hu, getD_idxOf hu _⟩
      have h1 := h (no + t) (by omega)
      have h2 := h (no + (triu no).length + t) (by omega)
      have a1 : ¬ no + t < no := by omega
      have a2 : no + t < no + (triu no).length := by omega
      have a3 : ¬ no + (triu no).length + t < no := by omega
      have a4 : ¬ no + (triu no).length + t < no + (triu no).length := by omega
      have a5 : no + t - no = t := by omega
      have a6 : no + (triu no).length + t - no - (triu no).length = t := by omega
      simp only [if_neg a1, if_pos a2, a5, hug _ t ht, hut] at h1
      simp only [if_neg a3, if_neg a4, a6, hug _ t ht, hut] at h2
      exact Complex.ext h1 h2
  · rintro ⟨h1, h2⟩ m hm
    simp only [matVec, splitReIm, hdl, hul] at hm ⊢
    by_cases c1 : m < no
    · rw [if_pos c1, if_pos c1, hdg M m c1, hdg M' m c1, h1 m c1]
    · rw [if_neg c1, if_neg c1]
      by_cases c2 : m < no + (triu no).length
      · have ht : m - no < (triu no).length := by omega
        rw [if_pos c2, if_pos c2, hug M _ ht, hug M' _ ht, h2 _ (getD_mem ht _)]
      · have ht : m - no - (triu no).length < (triu no).length := by omega
        rw [if_neg c2, if_neg c2, hug M _ ht, hug M' _ ht, h2 _ (getD_mem ht _)]

/-- the interaction tensor on the orbitals -/
def tensorOf (no : ℕ) (U : Arr4) : Operators.T4 no := fun a b c d => U a b c d

/-- the left side of the density constraint in terms of the Green's function -/
theorem densityMat_greens {β : ℝ} (hβ : β ≠ 0) {d : Driver} (hd : IsDriver β d) (nx no : ℕ) (U : Arr4) (g : Arr) (a b : Fin no) :
    densityMat d nx no U g a b = deriv (fun τ => d.eval nx g τ a b) 0 + deriv (fun τ => d.eval nx g τ a b) β
      - HartreeFock.meanField (tensorOf no U) (fun c e => -d.eval nx g β c e) a b := by
  rw [densityMat_eq d nx no U g a b a.2 b.2, (C102_drivers hβ hd nx g a b).2.1, sub_eq_add_neg]
  congr 1
  simp only [HartreeFock.meanField, tensorOf, ← Finset.sum_neg_distrib, (C102_drivers hβ hd nx g _ _).1]
  rw [Finset.sum_range]
  refine Finset.sum_congr rfl fun c _ => ?_
  rw [Finset.sum_range]
  refine Finset.sum_congr rfl fun e _ => ?_
  ring

/-- C102, the density (for every number of orbitals): with the constraint on, the sum of the slopes of the fitted Green's function
equals the quadratic term plus the mean field at its own density matrix above the diagonal, and in the real part of the diagonal.
Missing for the full statement: the components below the diagonal (`C102_density_partial` for up to three orbitals). -/
theorem C102_upper_partial {β : ℝ} (hβ : β ≠ 0) {d : Driver} (hd : IsDriver β d) {nx no : ℕ} {x : RVec}
    (hx : x.len = nx * (no + 2 * (no * (no - 1) / 2))) {h : ℕ → ℕ → ℂ} {U : Arr4} {pos disc : Bool}
    (hf : Feasible d nx no h U pos disc true x) :
    ∃ g, Symmetrizer.fitGFromX nx no x = .ok g ∧
      (∀ a b : Fin no, a < b → deriv (fun τ => d.eval nx g τ a b) 0 + deriv (fun τ => d.eval nx g τ a b) β
        = h a b + HartreeFock.meanField (tensorOf no U) (fun c e => -d.eval nx g β c e) a b) ∧
      (∀ a : Fin no, (deriv (fun τ => d.eval nx g τ a a) 0 + deriv (fun τ => d.eval nx g τ a a) β).re
        = (h a a + HartreeFock.meanField (tensorOf no U) (fun c e => -d.eval nx g β c e) a a).re) := by
  obtain ⟨g, hg, -⟩ := fit_ok hx
  obtain ⟨v, hv, hvh⟩ := hf.2.2 rfl
  have hv' : v = matVec no (densityMat d nx no U g) := by
    unfold densityConstraint at hv
    rw [hg] at hv
    exact (Except.ok.inj hv).symm
  subst hv'
  obtain ⟨h1, h2⟩ := (matVec_iff no _ _).1 hvh
  refine ⟨g, hg, fun a b hab => ?_, fun a => ?_⟩
  · have := h2 (a, b) ((mem_triu no _).2 ⟨a.2, b.2, hab⟩)
    simp only [densityMat_greens hβ hd nx no U g a b] at this
    rw [sub_eq_iff_eq_add] at this
    exact this
  · have := h1 a a.2
    rw [densityMat_greens hβ hd nx no U g a a, Complex.sub_re, sub_eq_iff_eq_add] at this
    rw [this, Complex.add_re]

/-- hermitian symmetry of the interaction tensor of a hermitian Hamiltonian -/
def TensorHermitian (no : ℕ) (U : Arr4) : Prop :=
  ∀ a b c e, a < no → b < no → c < no → e < no → (starRingEnd ℂ) (U a b c e) = U b a e c

theorem densityMat_hermitian {d : Driver} {nx no : ℕ} {U : Arr4} {g : Arr} (hU : TensorHermitian no U) (hg : Hermitian nx no g)
    (a b : ℕ) (ha : a < no) (hb : b < no) :
    densityMat d nx no U g b a = (starRingEnd ℂ) (densityMat d nx no U g a b) := by
  rw [densityMat_eq d nx no U g a b ha hb, densityMat_eq d nx no U g b a hb ha, map_add, map_sum, map_sum]
  congr 1
  · refine Finset.sum_congr rfl fun x hx => ?_
    rw [map_mul, Complex.conj_ofReal, hg x a b (Finset.mem_range.1 hx) ha hb]
  · rw [Finset.sum_comm]
    refine Finset.sum_congr rfl fun c hc => ?_
    rw [map_sum]
    refine Finset.sum_congr rfl fun e he => ?_
    have hc := Finset.mem_range.1 hc
    have he := Finset.mem_range.1 he
    rw [map_mul, hU b a c e hb ha hc he, map_sum]
    congr 1
    refine Finset.sum_congr rfl fun x hx => ?_
    rw [map_mul, Complex.conj_ofReal, hg x c e (Finset.mem_range.1 hx) hc he]

/-- C102, the density: for up to three orbitals, a hermitian quadratic term and a hermitian interaction, every parameter vector that
meets the density constraint gives a Green's function with `G'(0) + G'(beta) = h + meanField(-G(beta))` in all components.
Missing: more than three orbitals, where the Green's function of the fit need not be hermitian (`C45_hermitian_violated`). -/
theorem C102_density_partial {β : ℝ} (hβ : β ≠ 0) {d : Driver} (hd : IsDriver β d) {nx no : ℕ} (hno : no ≤ 3) {x : RVec}
    (hx : x.len = nx * (no + 2 * (no * (no - 1) / 2))) {h : ℕ → ℕ → ℂ} {U : Arr4}
    (hh : ∀ a b, a < no → b < no → h b a = (starRingEnd ℂ) (h a b)) (hU : TensorHermitian no U) {pos disc : Bool}
    (hf : Feasible d nx no h U pos disc true x) :
    ∃ g, Symmetrizer.fitGFromX nx no x = .ok g ∧
      ∀ a b : Fin no, deriv (fun τ => d.eval nx g τ a b) 0 + deriv (fun τ => d.eval nx g τ a b) β
        = h a b + HartreeFock.meanField (tensorOf no U) (fun c e => -d.eval nx g β c e) a b := by
  obtain ⟨g, hg, -, -, -, -, hherm⟩ := fit_ok hx
  obtain ⟨v, hv, hvh⟩ := hf.2.2 rfl
  have hv' : v = matVec no (densityMat d nx no U g) := by
    unfold densityConstraint at hv
    rw [hg] at hv
    exact (Except.ok.inj hv).symm
  subst hv'
  obtain ⟨h1, h2⟩ := (matVec_iff no _ _).1 hvh
  have hD := fun a b ha hb => densityMat_hermitian (d := d) hU (hherm hno) a b ha hb
  have hall : ∀ a b, a < no → b < no → densityMat d nx no U g a b = h a b := by
    refine cases_index no (P := fun a b => densityMat d nx no U g a b = h a b) ?_ h2 ?_
    · intro i hi
      refine Complex.ext (h1 i hi) ?_
      have e1 := Complex.conj_eq_iff_im.1 (hD i i hi hi).symm
      have e2 := Complex.conj_eq_iff_im.1 (hh i i hi hi).symm
      rw [e1, e2]
    · intro l hl
      have hl' := (mem_tril no l).1 hl
      have := h2 (l.2, l.1) ((mem_triu no _).2 ⟨hl'.2.1, hl'.1, hl'.2.2⟩)
      simp only at this
      rw [hD l.2 l.1 hl'.2.1 hl'.1, hh l.2 l.1 hl'.2.1 hl'.1, this]
  refine ⟨g, hg, fun a b => ?_⟩
  have := hall a b a.2 b.2
  rw [densityMat_greens hβ hd nx no U g a b, sub_eq_iff_eq_add] at this
  exact this

/-- Example: one level of energy `eps`, one basis function at its frequency. The single coefficient is fixed by the jump and meets
the density constraint. -/
example (eps : ℝ) : Feasible (triqsDriver 2 fun _ => 2 * eps) 1 1 (fun _ _ => eps) (fun _ _ _ _ => 0) false true true
    ⟨1, fun _ => 1⟩ := by
  have hd : IsDriver 2 (triqsDriver 2 fun _ => 2 * eps) := .inl ⟨_, rfl⟩
  obtain ⟨g, hg, hlen, hread, him, -⟩ := fit_ok (nx := 1) (no := 1) (x := ⟨1, fun _ => 1⟩) rfl
  have hg1 : g 0 0 0 = 1 := by
    have h1 := hread 0 (by norm_num)
    have h2 := him 0 0 (by norm_num)
    have : (g 0 0 0).re = 1 := h1
    exact Complex.ext (by simpa using this) (by simpa using h2)
  have hno : ∀ u, u ∉ triu 1 := by decide
  refine ⟨by simp, fun _ => (jump_iff g _ hlen hread).2 ⟨fun i hi => ?_, fun u hu => absurd hu (hno u)⟩, fun _ => ?_⟩
  · obtain rfl : i = 0 := by omega
    simp [hg1, triqsDriver]
  · refine ⟨_, by unfold densityConstraint; rw [hg]; rfl, (matVec_iff 1 _ _).2 ⟨fun i hi => ?_, fun u hu => absurd hu (hno u)⟩⟩
    obtain rfl : i = 0 := by omega
    have hk := (driver_kernel (by norm_num) hd 0).2.1
    rw [densityMat_eq _ _ _ _ _ _ _ hi hi]
    simp only [Finset.range_one, Finset.sum_singleton, hg1, mul_one, zero_mul, add_zero, Complex.ofReal_re]
    simp only [triqsDriver, one_mul] at hk ⊢
    rw [hk]
    ring

/-! ### Exact Green's functions -/

/-- the parameters of a hermitian Green's function give it back, up to three orbitals -/
theorem fit_inverse {nx no : ℕ} (hno : no ≤ 3) {g : Arr} (hg : Hermitian nx no g) :
    (Symmetrizer.fitXFromG nx no g).len = nx * (no + 2 * (no * (no - 1) / 2)) ∧
    ∃ g', Symmetrizer.fitGFromX nx no (Symmetrizer.fitXFromG nx no g) = .ok g' ∧
      ∀ x a b, x < nx → a < no → b < no → g' x a b = g x a b := by
  have hl : (Symmetrizer.fitXFromG nx no g).len = nx * (no + 2 * (no * (no - 1) / 2)) := by
    simp only [Symmetrizer.fitXFromG, splitReIm, Symmetrizer.getXD, Symmetrizer.getXU, gather, length_diag, length_triu]
    ring
  refine ⟨hl, ?_⟩
  obtain ⟨g', hg', -, hread, -, -, hherm⟩ := fit_ok hl
  refine ⟨g', hg', ?_⟩
  have hh' := hherm hno
  have hd : ∀ y i, y < nx → i < no → (g' y i i).re = (g y i i).re := by
    intro y i hy hi
    have hlt : y * no + i < nx * no := by
      calc y * no + i < y * no + no := by omega
        _ = (y + 1) * no := by ring
        _ ≤ nx * no := Nat.mul_le_mul_right _ hy
    have := hread (y * no + i) (by rw [hl]; nlinarith [Nat.zero_le (nx * (2 * (no * (no - 1) / 2)))])
    obtain ⟨e1, e2⟩ := divmod y i no hi
    have e3 : (diag no).getD i (0, 0) = (i, i) := by
      rw [List.getD_eq_getElem _ _ (by rw [length_diag]; exact hi)]
      simp [diag]
    simp only [Symmetrizer.fitXFromG, splitReIm, Symmetrizer.getXD, gather, length_diag, if_pos hlt, e1, e2, e3] at this
    exact this
  have hu : ∀ y u, y < nx → u ∈ triu no → g' y u.1 u.2 = g y u.1 u.2 := by
    intro y u hy hu
    obtain ⟨t, ht, hut⟩ : ∃ t < (triu no).length, (triu no).getD t (0, 0) = u :=
      ⟨_, List.idxOf_lt_length_of_mem hu, getD_idxOf hu _⟩
    obtain ⟨e1, e2⟩ := divmod y t (triu no).length ht
    have hlt : y * (triu no).length + t < nx * (triu no).length := by
      calc y * (triu no).length + t < y * (triu no).length + (triu no).length := by omega
        _ = (y + 1) * (triu no).length := by ring
        _ ≤ nx * (triu no).length := Nat.mul_le_mul_right _ hy
    have hL : (Symmetrizer.fitXFromG nx no g).len = nx * no + nx * (triu no).length + nx * (triu no).length := by
      simp only [Symmetrizer.fitXFromG, splitReIm, Symmetrizer.getXD, Symmetrizer.getXU, gather, length_diag]
    have r1 := hread (nx * no + (y * (triu no).length + t)) (by omega)
    have r2 := hread (nx * no + nx * (triu no).length + (y * (triu no).length + t)) (by omega)
    have a1 : ¬ nx * no + (y * (triu no).length + t) < nx * no := by omega
    have a2 : nx * no + (y * (triu no).length + t) < nx * no + nx * (triu no).length := by omega
    have a3 : ¬ nx * no + nx * (triu no).length + (y * (triu no).length + t) < nx * no := by omega
    have a4 : ¬ nx * no + nx * (triu no).length + (y * (triu no).length + t) < nx * no + nx * (triu no).length := by omega
    have a5 : nx * no + nx * (triu no).length + (y * (triu no).length + t) - nx * no - nx * (triu no).length
        = y * (triu no).length + t := by omega
    simp only [Symmetrizer.fitXFromG, splitReIm, Symmetrizer.getXD, Symmetrizer.getXU, gather, length_diag, if_neg a1, if_pos a2,
      Nat.add_sub_cancel_left, e1, e2, hut] at r1
    simp only [Symmetrizer.fitXFromG, splitReIm, Symmetrizer.getXD, Symmetrizer.getXU, gather, length_diag, if_neg a3, if_neg a4,
      a5, e1, e2, hut] at r2
    exact Complex.ext r1 r2
  intro y a b hy
  refine cases_index no (P := fun a b => g' y a b = g y a b) ?_ (fun u hu' => hu y u hy hu') ?_ a b
  · intro i hi
    refine Complex.ext (hd y i hy hi) ?_
    rw [Complex.conj_eq_iff_im.1 (hh' y i i hy hi hi).symm, Complex.conj_eq_iff_im.1 (hg y i i hy hi hi).symm]
  · intro l hl
    have hl' := (mem_tril no l).1 hl
    have := hu y (l.2, l.1) hy ((mem_triu no _).2 ⟨hl'.2.1, hl'.1, hl'.2.2⟩)
    simp only at this
    rw [hh' y l.2 l.1 hy hl'.2.1 hl'.1, hg y l.2 l.1 hy hl'.2.1 hl'.1, this]

theorem eval_congr {d : Driver} {nx no : ℕ} {g g' : Arr} (h : ∀ x a b, x < nx → a < no → b < no → g' x a b = g x a b) (τ : ℝ)
    (a b : ℕ) (ha : a < no) (hb : b < no) : d.eval nx g' τ a b = d.eval nx g τ a b :=
  Finset.sum_congr rfl fun x hx => by rw [h x a b (Finset.mem_range.1 hx) ha hb]

/-- C102, completeness: for up to three orbitals every hermitian Green's function with coefficients in the representation that has
the jump and obeys the relation of slopes and density matrix meets all constraints, and the fit can return it. -/
theorem C102_complete_partial {β : ℝ} (hβ : β ≠ 0) {d : Driver} (hd : IsDriver β d) {nx no : ℕ} (hno : no ≤ 3) {g : Arr}
    (hg : Hermitian nx no g) {h : ℕ → ℕ → ℂ} {U : Arr4}
    (hjump : ∀ a b : Fin no, d.eval nx g 0 a b + d.eval nx g β a b = if a = b then -1 else 0)
    (hslope : ∀ a b : Fin no, deriv (fun τ => d.eval nx g τ a b) 0 + deriv (fun τ => d.eval nx g τ a b) β
        = h a b + HartreeFock.meanField (tensorOf no U) (fun c e => -d.eval nx g β c e) a b) (disc dens : Bool) :
    Feasible d nx no h U false disc dens (Symmetrizer.fitXFromG nx no g) ∧
    ∃ g', Symmetrizer.fitGFromX nx no (Symmetrizer.fitXFromG nx no g) = .ok g' ∧
      ∀ τ a b, a < no → b < no → d.eval nx g' τ a b = d.eval nx g τ a b := by
  obtain ⟨hl, g', hg', heq⟩ := fit_inverse hno hg
  refine ⟨⟨fun h => (by cases h), fun _ => ?_, fun _ => ?_⟩, g', hg', fun τ a b ha hb => eval_congr heq τ a b ha hb⟩
  · have hbb := (driver_kernel hβ hd 0).2.2.1
    have hsum : ∀ a b : Fin no, ∑ y ∈ Finset.range nx, g y a b = if a = b then (d.bound : ℂ) else 0 := by
      intro a b
      have h1 := (C102_drivers hβ hd nx g a b).2.2
      rw [hjump a b] at h1
      have h2 : (d.bound : ℂ) * d.bound = 1 := by rw [← Complex.ofReal_mul, hbb, Complex.ofReal_one]
      calc ∑ y ∈ Finset.range nx, g y a b = (d.bound : ℂ) * d.bound * ∑ y ∈ Finset.range nx, g y a b := by rw [h2, one_mul]
        _ = -(d.bound * (-d.bound * ∑ y ∈ Finset.range nx, g y a b)) := by ring
        _ = _ := by
          rw [← h1]
          split_ifs <;> simp
    refine (jump_iff g _ rfl fun m _ => rfl).2 ⟨fun i hi => ?_, fun u hu => ?_⟩
    · rw [hsum ⟨i, hi⟩ ⟨i, hi⟩, if_pos rfl, Complex.ofReal_re]
    · have hu' := (mem_triu no u).1 hu
      have := hsum ⟨u.1, hu'.1⟩ ⟨u.2, hu'.2.1⟩
      rw [if_neg (by simp only [Fin.mk.injEq]; omega)] at this
      exact this
  · have hD : ∀ a b : Fin no, densityMat d nx no U g' a b = h a b := by
      intro a b
      have e1 : densityMat d nx no U g' a b = densityMat d nx no U g a b := by
        rw [densityMat_eq d nx no U g' a b a.2 b.2, densityMat_eq d nx no U g a b a.2 b.2]
        congr 1
        · exact Finset.sum_congr rfl fun x hx => by rw [heq x a b (Finset.mem_range.1 hx) a.2 b.2]
        · refine Finset.sum_congr rfl fun c hc => Finset.sum_congr rfl fun e he => ?_
          congr 1
          exact Finset.sum_congr rfl fun x hx => by
            rw [heq x c e (Finset.mem_range.1 hx) (Finset.mem_range.1 hc) (Finset.mem_range.1 he)]
      rw [e1, densityMat_greens hβ hd nx no U g a b, hslope a b, add_sub_cancel_right]
    refine ⟨matVec no (densityMat d nx no U g'), by unfold densityConstraint; rw [hg']; rfl, ?_⟩
    refine (matVec_iff no _ _).2 ⟨fun i hi => ?_, fun u hu => ?_⟩
    · rw [hD ⟨i, hi⟩ ⟨i, hi⟩]
    · have hu' := (mem_triu no u).1 hu
      exact hD ⟨u.1, hu'.1⟩ ⟨u.2, hu'.2.1⟩

/-- C102, more orbitals: with four orbitals a hermitian Green's function of the fit has equal components (0, 3) and (1, 2), so that
exact Green's functions without this symmetry cannot be returned. -/
theorem C102_four_violated {nx : ℕ} {x : RVec} (hx : x.len = nx * (4 + 2 * (4 * (4 - 1) / 2))) {g : Arr}
    (hg : Symmetrizer.fitGFromX nx 4 x = .ok g) (hh : Hermitian nx 4 g) (y : ℕ) (hy : y < nx) : g y 1 2 = g y 0 3 := by
  obtain ⟨g', hg', -, -, -, hlow, -⟩ := fit_ok (no := 4) hx
  have : g' = g := Except.ok.inj (hg'.symm.trans hg)
  subst this
  have h1 := (hlow (2, 1) (by decide) (0, 3) (by decide)).1 (by decide) y
  have h2 := hh y 1 2 hy (by norm_num) (by norm_num)
  simp only at h1
  rw [h1] at h2
  exact (starRingEnd ℂ).injective h2.symm

/-! ### Positivity -/

/-- C102, positivity: what the option asks on its own, one bound for the sum of the coefficients of every diagonal component (not
the sign of the coefficients). -/
theorem C102_positivity_meaning {d : Driver} {nx no : ℕ} {x : RVec} (hx : x.len = nx * (no + 2 * (no * (no - 1) / 2)))
    {h : ℕ → ℕ → ℂ} {U : Arr4} :
    ∃ g, Symmetrizer.fitGFromX nx no x = .ok g ∧
      (Feasible d nx no h U true false false x ↔ ∀ i < no, ∑ y ∈ Finset.range nx, (g y i i).re ≤ 0) := by
  obtain ⟨g, hg, hlen, hread, -⟩ := fit_ok hx
  refine ⟨g, hg, fun hf i hi => ?_, fun hf => ⟨fun _ A hA => ?_, fun h => (by cases h), fun h => (by cases h)⟩⟩
  · rw [← dot_diag g x hlen hread i hi]
    exact hf.1 rfl _ (List.mem_map.2 ⟨i, List.mem_range.2 hi, rfl⟩)
  · obtain ⟨i, hi, rfl⟩ := List.mem_map.1 hA
    rw [dot_diag g x hlen hread i (List.mem_range.1 hi)]
    exact hf i (List.mem_range.1 hi)

/-- C102, positivity: with the TRIQS driver the positivity option contradicts the jump: no parameter vector meets both. -/
theorem C102_positivity_violated {β : ℝ} {w : ℕ → ℝ} {nx no : ℕ} (hno : 0 < no) {x : RVec}
    {h : ℕ → ℕ → ℂ} {U : Arr4} {dens : Bool} : ¬ Feasible (triqsDriver β w) nx no h U true true dens x := by
  rintro ⟨h1, h2, -⟩
  have e1 := h1 rfl (Symmetrizer.fitXFromG nx no (unitArr 0 0 1)) (List.mem_map.2 ⟨0, List.mem_range.2 hno, rfl⟩)
  have e2 := h2 rfl (Symmetrizer.fitXFromG nx no (unitArr 0 0 1), 1)
    (List.mem_append.2 (.inl (List.mem_map.2 ⟨0, List.mem_range.2 hno, rfl⟩)))
  simp only at e2
  linarith

/-- C102, positivity: with the other driver it asks nothing beyond the jump, so coefficients of both signs are accepted. -/
theorem C102_positivity_pydlr_violated {β : ℝ} {w : ℕ → ℝ} {nx no : ℕ} {x : RVec} {h : ℕ → ℕ → ℂ} {U : Arr4} {dens : Bool}
    (hf : Feasible (pydlrDriver β w) nx no h U false true dens x) : Feasible (pydlrDriver β w) nx no h U true true dens x := by
  refine ⟨fun _ A hA => ?_, hf.2⟩
  obtain ⟨i, hi, rfl⟩ := List.mem_map.1 hA
  have e2 := hf.2.1 rfl (Symmetrizer.fitXFromG nx no (unitArr i i 1), -1)
    (List.mem_append.2 (.inl (List.mem_map.2 ⟨i, hi, rfl⟩)))
  simp only at e2
  linarith

/-- Example for the last theorem: two coefficients of different sign -/
example (β : ℝ) (w : ℕ → ℝ) : Feasible (pydlrDriver β w) 2 1 (fun _ _ => 0) (fun _ _ _ _ => 0) true true false
    ⟨2, fun m => if m = 0 then 1 else -2⟩ := by
  refine C102_positivity_pydlr_violated ?_
  obtain ⟨g, hg, hlen, hread, him, -⟩ := fit_ok (nx := 2) (no := 1) (x := ⟨2, fun m => if m = 0 then 1 else -2⟩) rfl
  have hno : ∀ u, u ∉ triu 1 := by decide
  refine ⟨by simp, fun _ => (jump_iff g _ hlen hread).2 ⟨fun i hi => ?_, fun u hu => absurd hu (hno u)⟩, by simp⟩
  obtain rfl : i = 0 := by omega
  have h0 : (g 0 0 0).re = 1 := hread 0 (by norm_num)
  have h1 : (g 1 0 0).re = -2 := hread 1 (by norm_num)
  simp only [Finset.sum_range_succ, Finset.sum_range_zero, zero_add, Complex.add_re, h0, h1, pydlrDriver]
  norm_num

/-- C102, the reported residual: `density_res` is the largest deviation of the components that the constraint compares: no component
deviates more, one deviates as much if there is one, and it is zero exactly if the constraint is met. -/
theorem C102_residual (no : ℕ) (h : ℕ → ℕ → ℂ) (v : RVec) :
    (∀ m < v.len, |v.get m - (matVec no h).get m| ≤ densityRes no h v) ∧
    (0 < v.len → ∃ m < v.len, |v.get m - (matVec no h).get m| = densityRes no h v) ∧
    (densityRes no h v = 0 ↔ ∀ m < v.len, v.get m = (matVec no h).get m) := by
  have key : ∀ m, ((‖(matVec no h).get m - v.get m‖₊ : NNReal) : ℝ) = |v.get m - (matVec no h).get m| := by
    intro m
    rw [coe_nnnorm, Real.norm_eq_abs, abs_sub_comm]
  have h1 : ∀ m < v.len, |v.get m - (matVec no h).get m| ≤ densityRes no h v := by
    intro m hm
    rw [← key]
    exact_mod_cast Finset.le_sup (f := fun m => ‖(matVec no h).get m - v.get m‖₊) (Finset.mem_range.2 hm)
  refine ⟨h1, fun hpos => ?_, fun h0 m hm => ?_, fun h0 => ?_⟩
  · obtain ⟨m, hm, he⟩ := Finset.exists_mem_eq_sup (Finset.range v.len) ⟨0, Finset.mem_range.2 hpos⟩
      (fun m => ‖(matVec no h).get m - v.get m‖₊)
    refine ⟨m, Finset.mem_range.1 hm, ?_⟩
    rw [← key]
    exact_mod_cast he.symm
  · have := h1 m hm
    rw [h0] at this
    exact sub_eq_zero.1 (abs_eq_zero.1 (le_antisymm this (abs_nonneg _)))
  · refine le_antisymm (Finset.sup_le fun m hm => ?_) zero_le
    rw [h0 m (Finset.mem_range.1 hm), sub_self, nnnorm_zero]

end Verif.FitDlr
