import Verif.FitDlr.FitProps

/-!
# The option `realvalued` of the constrained fit (C125)

With `realvalued=True` the coefficients of the fit are real arrays: the parameters are the real diagonal and the real upper triangle,
the second half of the jump constraints is left out, and the vector of the density constraint keeps real parts.
-/

noncomputable section

set_option linter.unusedSectionVars false

namespace Verif.FitDlr.RealFit

open Verif.Symmetries (triu tril mem_triu mem_tril)

/-! ### Model -/

/-- `split_re_im` with `realvalued` (fitdlr.py:271-272) -/
def split (xd xu : Vec) : RVec where
  len := xd.len + xu.len
  get m := if m < xd.len then (xd.get m).re else (xu.get (m - xd.len)).re

/-- `merge_re_im` with `realvalued` (fitdlr.py:269-270) -/
def merge (nx no : ℕ) (x : RVec) : Vec × Vec :=
  let nd := min (nx * no) x.len
  (⟨nd, fun m => x.get m⟩, ⟨x.len - nd, fun m => x.get (nd + m)⟩)

/-- `g_from_x` (fitdlr.py:293-298) with `realvalued`: the array is real, so are all values -/
def gFromX (nx no : ℕ) (x : RVec) : Except String Arr :=
  Symmetrizer.gFromX nx no (merge nx no x).1 (merge nx no x).2

/-- `x_from_g` (fitdlr.py:300-304) with `realvalued` -/
def xFromG (nx no : ℕ) (g : Arr) : RVec := split (Symmetrizer.getXD nx no g) (Symmetrizer.getXU nx no g)

/-- The constraints of the jump (fitdlr.py:322-345) with `realvalued`: one row per component -/
def jumpConstraints (d : Driver) (nx no : ℕ) : List (RVec × ℝ) :=
  (List.range no).map (fun i => (xFromG nx no (unitArr i i 1), d.bound))
    ++ (triu no).map fun u => (xFromG nx no (unitArr u.1 u.2 1), 0)

/-- The rows of the positivity option (fitdlr.py:312-320) -/
def positivityRows (nx no : ℕ) : List RVec := (List.range no).map fun i => xFromG nx no (unitArr i i 1)

/-- `mat_vec` (fitdlr.py:354-358) with `realvalued` -/
def matVec (no : ℕ) (mat : ℕ → ℕ → ℂ) : RVec :=
  split (Symmetrizer.getXD 1 no fun _ => mat) (Symmetrizer.getXU 1 no fun _ => mat)

/-- `density_constraint_function` (fitdlr.py:360-364) with `realvalued` -/
def densityConstraint (d : Driver) (nx no : ℕ) (U : Arr4) (x : RVec) : Except String RVec := do
  let g ← gFromX nx no x
  return matVec no (densityMat d nx no U g)

/-- What the fit asks of its parameters (fitdlr.py:311-369) with `realvalued` and the default symmetriser -/
def Feasible (d : Driver) (nx no : ℕ) (h : ℕ → ℕ → ℂ) (U : Arr4)
    (positivity discontinuity density : Bool) (x : RVec) : Prop :=
  (positivity = true → ∀ A ∈ positivityRows nx no, dot A x ≤ 0) ∧
  (discontinuity = true → ∀ c ∈ jumpConstraints d nx no, dot c.1 x = c.2) ∧
  (density = true → ∃ v, densityConstraint d nx no U x = .ok v ∧ ∀ m < v.len, v.get m = (matVec no h).get m)

/-- The square of `target_function` (fitdlr.py:371-379): the sum of squares of the differences to the input at the times `tau_i`;
with `realvalued` the input is replaced by its real part (fitdlr.py:266). -/
def targetSq (d : Driver) (nx no : ℕ) (taus : List ℝ) (data : ℕ → ℕ → ℕ → ℂ) (realvalued : Bool) (g : Arr) : ℝ :=
  let input : ℕ → ℕ → ℕ → ℂ := fun i a b => if realvalued then ((data i a b).re : ℂ) else data i a b
  ∑ i ∈ Finset.range taus.length, ∑ a ∈ Finset.range no, ∑ b ∈ Finset.range no,
    Complex.normSq (d.eval nx g (taus.getD i 0) a b - input i a b)

/-! ### Parameters -/

/-- all coefficients are real -/
def RealArr (no : ℕ) (g : Arr) : Prop := ∀ y a b, a < no → b < no → (g y a b).im = 0

theorem ok {nx no : ℕ} {x : RVec} (hx : x.len = nx * (no + no * (no - 1) / 2)) :
    ∃ g, gFromX nx no x = .ok g ∧ (xFromG nx no g).len = x.len ∧
      (∀ m < x.len, (xFromG nx no g).get m = x.get m) ∧ RealArr no g ∧
      (∀ l ∈ tril no, ∀ u, (triu no).getD ((tril no).idxOf l) (0, 0) = u →
        (u ∈ triu no → ∀ y, g y l.1 l.2 = (starRingEnd ℂ) (g y u.1 u.2)) ∧ (u ∉ triu no → ∀ y, g y l.1 l.2 = 0)) ∧
      (no ≤ 3 → Hermitian nx no g) := by
  obtain ⟨N, hN⟩ : ∃ N, N = no * (no - 1) / 2 := ⟨_, rfl⟩
  have hl : x.len = nx * no + nx * N := by rw [hx, hN]; ring
  have hmin : min (nx * no) x.len = nx * no := by omega
  have hmerge : merge nx no x = (⟨nx * no, fun m => x.get m⟩, ⟨nx * N, fun m => x.get (nx * no + m)⟩) := by
    have hsub : x.len - nx * no = nx * N := by omega
    unfold merge
    simp only [hmin, hsub]
  obtain ⟨g, hg, ⟨d1, d2⟩, u1, u2⟩ := C45_readback (nx := nx) (no := no) (xd := ⟨nx * no, fun m => x.get m⟩)
    (xu := ⟨nx * N, fun m => x.get (nx * no + m)⟩) rfl (by rw [hN])
  obtain ⟨g', hg', h1, h2, h3⟩ := Symmetrizer.gFromX_ok (nx := nx) (no := no) (xd := ⟨nx * no, fun m => x.get m⟩)
    (xu := ⟨nx * N, fun m => x.get (nx * no + m)⟩) rfl (by rw [hN])
  have hgg : g' = g := Except.ok.inj (hg'.symm.trans hg)
  subst hgg
  simp only at d1 d2 u1 u2
  refine ⟨g', by unfold gFromX; rw [hmerge]; exact hg, ?_, ?_, ?_, ?_, ?_⟩
  · simp only [xFromG, split, d1, u1]
    exact hl.symm
  · intro m hm
    simp only [xFromG, split, d1]
    by_cases hc : m < nx * no
    · rw [if_pos hc, d2 m (by omega), Complex.ofReal_re]
    · rw [if_neg hc, u2 _ (by omega), Complex.ofReal_re]
      congr 1
      omega
  · intro y a b ha hb
    refine cases_index no (P := fun a b => (g' y a b).im = 0) ?_ ?_ ?_ a b ha hb
    · intro i hi
      rw [h1 y i hi, Complex.ofReal_im]
    · intro u hu
      rw [h2 y u hu, Complex.ofReal_im]
    · intro l hl
      rw [h3 y l hl]
      simp only
      split_ifs <;> simp
  · rintro l hlm _ rfl
    refine ⟨fun hu y => ?_, fun hu y => ?_⟩
    · rw [h3 y l hlm, h2 y _ hu]
      simp only [if_pos hu]
    · rw [h3 y l hlm]
      simp only [if_neg hu, map_zero]
  · intro hno
    obtain ⟨g'', hg'', hherm⟩ := C45_hermitian_partial (nx := nx) hno (xd := ⟨nx * no, fun m => x.get m⟩)
      (xu := ⟨nx * N, fun m => x.get (nx * no + m)⟩) rfl (by rw [hN]) (fun m _ => Complex.conj_ofReal _)
    have hgg : g'' = g' := Except.ok.inj (hg''.symm.trans hg)
    rwa [← hgg]

/-- rows of the real fit act like rows of the complex one on the parameters of a real function -/
theorem dot_real {nx no : ℕ} (A g : Arr) (hg : RealArr no g) (x : RVec) (hlen : (xFromG nx no g).len = x.len)
    (hx : ∀ m < x.len, (xFromG nx no g).get m = x.get m) :
    dot (xFromG nx no A) x = dot (Symmetrizer.fitXFromG nx no A) (Symmetrizer.fitXFromG nx no g) := by
  have h1 : dot (xFromG nx no A) x = ∑ m ∈ Finset.range (xFromG nx no g).len,
      (xFromG nx no A).get m * (xFromG nx no g).get m := by
    rw [hlen]
    exact Finset.sum_congr rfl fun m hm => by rw [hx m (Finset.mem_range.1 hm)]
  have h2 := split_dot (Symmetrizer.getXD nx no A) (Symmetrizer.getXU nx no A) (Symmetrizer.getXD nx no g)
    (Symmetrizer.getXU nx no g) rfl rfl
  refine h1.trans (Eq.trans ?_ h2.symm)
  have him : ∑ m ∈ Finset.range (Symmetrizer.getXU nx no g).len,
      ((Symmetrizer.getXU nx no A).get m).im * ((Symmetrizer.getXU nx no g).get m).im = 0 := by
    refine Finset.sum_eq_zero fun m hm => ?_
    have hm : m < nx * (triu no).length := Finset.mem_range.1 hm
    have hpos : 0 < (triu no).length := by
      by_contra h0
      obtain h0 : (triu no).length = 0 := by omega
      rw [h0] at hm
      omega
    have hu := (mem_triu no _).1 (getD_mem (l := triu no) (Nat.mod_lt m hpos) (0, 0))
    have := hg (m / (triu no).length) _ _ hu.1 hu.2.1
    have e : ((Symmetrizer.getXU nx no g).get m).im = 0 := this
    rw [e, mul_zero]
  rw [him, add_zero]
  have hsplit : (xFromG nx no g).len = (Symmetrizer.getXD nx no g).len + (Symmetrizer.getXU nx no g).len := rfl
  rw [hsplit, Finset.sum_range_add]
  congr 1
  · refine Finset.sum_congr rfl fun m hm => ?_
    have hm := Finset.mem_range.1 hm
    have hm' : m < (Symmetrizer.getXD nx no A).len := hm
    simp only [xFromG, split, if_pos hm, if_pos hm']
  · refine Finset.sum_congr rfl fun m hm => ?_
    have a1 : ¬ (Symmetrizer.getXD nx no g).len + m < (Symmetrizer.getXD nx no g).len := by omega
    have a2 : ¬ (Symmetrizer.getXD nx no g).len + m < (Symmetrizer.getXD nx no A).len := a1
    have a3 : (Symmetrizer.getXD nx no g).len + m - (Symmetrizer.getXD nx no A).len = m := Nat.add_sub_cancel_left ..
    simp only [xFromG, split, if_neg a1, if_neg a2, a3, Nat.add_sub_cancel_left]

/-- the rows of the jump constraints, in terms of the Green's function -/
theorem jump_iff {d : Driver} {nx no : ℕ} (g : Arr) (hg : RealArr no g) (x : RVec) (hlen : (xFromG nx no g).len = x.len)
    (hx : ∀ m < x.len, (xFromG nx no g).get m = x.get m) :
    (∀ c ∈ jumpConstraints d nx no, dot c.1 x = c.2) ↔
      (∀ i < no, (∑ y ∈ Finset.range nx, g y i i).re = d.bound) ∧
      ∀ u ∈ triu no, ∑ y ∈ Finset.range nx, g y u.1 u.2 = 0 := by
  have hrow : (∀ c ∈ jumpConstraints d nx no, dot c.1 x = c.2) ↔
      (∀ i < no, dot (xFromG nx no (unitArr i i 1)) x = d.bound) ∧
      ∀ u ∈ triu no, dot (xFromG nx no (unitArr u.1 u.2 1)) x = 0 := by
    unfold jumpConstraints
    simp only [List.mem_append, List.mem_map, List.mem_range]
    constructor
    · intro h
      exact ⟨fun i hi => h _ (.inl ⟨i, hi, rfl⟩), fun u hu => h _ (.inr ⟨u, hu, rfl⟩)⟩
    · rintro ⟨h1, h2⟩ c (⟨i, hi, rfl⟩ | ⟨u, hu, rfl⟩)
      · exact h1 i hi
      · exact h2 u hu
  rw [hrow]
  refine and_congr ?_ ?_
  · refine forall₂_congr fun i hi => ?_
    rw [dot_real _ g hg x hlen hx, dot_diag g _ rfl (fun _ _ => rfl) i hi, Complex.re_sum]
  · refine forall₂_congr fun u hu => ?_
    have hu' := (mem_triu no u).1 hu
    rw [dot_real _ g hg x hlen hx, dot_triu g _ rfl (fun _ _ => rfl) u hu, Complex.ext_iff, Complex.re_sum, Complex.im_sum,
      Finset.sum_eq_zero (f := fun y => (g y u.1 u.2).im) fun y _ => hg y _ _ hu'.1 hu'.2.1]
    simp

/-- what the density constraint compares -/
theorem matVec_iff (no : ℕ) (M M' : ℕ → ℕ → ℂ) :
    (∀ m < (matVec no M).len, (matVec no M).get m = (matVec no M').get m) ↔
      (∀ i < no, (M i i).re = (M' i i).re) ∧ ∀ u ∈ triu no, (M u.1 u.2).re = (M' u.1 u.2).re := by
  have hdl : ∀ M : ℕ → ℕ → ℂ, (Symmetrizer.getXD 1 no fun _ => M).len = no := fun M => by
    simp [Symmetrizer.getXD, gather, length_diag]
  have hul : ∀ M : ℕ → ℕ → ℂ, (Symmetrizer.getXU 1 no fun _ => M).len = (triu no).length := fun M => by
    simp [Symmetrizer.getXU, gather]
  have hdg : ∀ (M : ℕ → ℕ → ℂ) i, i < no → (Symmetrizer.getXD 1 no fun _ => M).get i = M i i := by
    intro M i hi
    have : (diag no).getD i (0, 0) = (i, i) := by
      rw [List.getD_eq_getElem _ _ (by rw [length_diag]; exact hi)]
      simp [diag]
    simp only [Symmetrizer.getXD, gather, length_diag, Nat.mod_eq_of_lt hi, this]
  have hug : ∀ (M : ℕ → ℕ → ℂ) t, t < (triu no).length → (Symmetrizer.getXU 1 no fun _ => M).get t
      = M ((triu no).getD t (0, 0)).1 ((triu no).getD t (0, 0)).2 := by
    intro M t ht
    simp only [Symmetrizer.getXU, gather, Nat.mod_eq_of_lt ht]
  constructor
  · intro h
    simp only [matVec, split, hdl, hul] at h
    refine ⟨fun i hi => ?_, fun u hu => ?_⟩
    · have := h i (by omega)
      rw [if_pos hi, if_pos hi, hdg M i hi, hdg M' i hi] at this
      exact this
    · obtain ⟨t, ht, hut⟩ : ∃ t < (triu no).length, (triu no).getD t (0, 0) = u :=
        ⟨_, List.idxOf_lt_length_of_mem hu, getD_idxOf hu _⟩
      have h1 := h (no + t) (by omega)
      have a1 : ¬ no + t < no := by omega
      have a5 : no + t - no = t := by omega
      simp only [if_neg a1, a5, hug _ t ht, hut] at h1
      exact h1
  · rintro ⟨h1, h2⟩ m hm
    simp only [matVec, split, hdl, hul] at hm ⊢
    by_cases c1 : m < no
    · rw [if_pos c1, if_pos c1, hdg M m c1, hdg M' m c1, h1 m c1]
    · have ht : m - no < (triu no).length := by omega
      rw [if_neg c1, if_neg c1, hug M _ ht, hug M' _ ht, h2 _ (getD_mem ht _)]

/-! ### The properties -/

/-- the values of the Green's function in imaginary time are real -/
theorem eval_im {d : Driver} {nx no : ℕ} {g : Arr} (hg : RealArr no g) (τ : ℝ) (a b : ℕ) (ha : a < no) (hb : b < no) :
    (d.eval nx g τ a b).im = 0 := by
  unfold Driver.eval
  rw [Complex.im_sum]
  refine Finset.sum_eq_zero fun x _ => ?_
  rw [Complex.im_ofReal_mul, hg x a b ha hb, mul_zero]

/-- C125, the result: every parameter vector of the right length gives a Green's function that is real at all times, for every number
of orbitals, the parameters are read back from it, and up to three orbitals it is symmetric.
Missing for the full statement: symmetry from four orbitals on (`C125_symmetric_violated`). -/
theorem C125_real_partial {d : Driver} {nx no : ℕ} {x : RVec} (hx : x.len = nx * (no + no * (no - 1) / 2)) :
    ∃ g, gFromX nx no x = .ok g ∧ (xFromG nx no g).len = x.len ∧ (∀ m < x.len, (xFromG nx no g).get m = x.get m) ∧
      (∀ τ a b, a < no → b < no → (d.eval nx g τ a b).im = 0) ∧
      (no ≤ 3 → ∀ τ a b, a < no → b < no → d.eval nx g τ a b = d.eval nx g τ b a) := by
  obtain ⟨g, hg, h1, h2, h3, -, h5⟩ := ok hx
  refine ⟨g, hg, h1, h2, fun τ a b ha hb => eval_im h3 τ a b ha hb, fun hno τ a b ha hb => ?_⟩
  refine Finset.sum_congr rfl fun y hy => ?_
  rw [h5 hno y b a (Finset.mem_range.1 hy) hb ha, Complex.conj_eq_iff_im.2 (h3 y b a hb ha)]

/-- C125, symmetry: with four orbitals the component (2, 1) of the fit is the parameter of (0, 3), so a symmetric result has equal
components (1, 2) and (0, 3). -/
theorem C125_symmetric_violated {nx : ℕ} {x : RVec} (hx : x.len = nx * (4 + 4 * (4 - 1) / 2)) {g : Arr}
    (hg : gFromX nx 4 x = .ok g) (y : ℕ) (hs : g y 2 1 = g y 1 2) : g y 1 2 = g y 0 3 := by
  obtain ⟨g', hg', -, -, hr, hlow, -⟩ := ok (no := 4) hx
  have : g' = g := Except.ok.inj (hg'.symm.trans hg)
  subst this
  have h1 := (hlow (2, 1) (by decide) (0, 3) (by decide)).1 (by decide) y
  simp only at h1
  rw [Complex.conj_eq_iff_im.2 (hr y 0 3 (by norm_num) (by norm_num))] at h1
  rw [← hs, h1]

/-- C125, the jump: leaving out the imaginary rows loses nothing: `G(0) + G(beta) = -1` in all components and `norm_res = 0`, for every
number of orbitals. -/
theorem C125_jump {β : ℝ} (hβ : β ≠ 0) {d : Driver} (hd : IsDriver β d) {nx no : ℕ} {x : RVec}
    (hx : x.len = nx * (no + no * (no - 1) / 2)) {h : ℕ → ℕ → ℂ} {U : Arr4} {pos dens : Bool}
    (hf : Feasible d nx no h U pos true dens x) :
    ∃ g, gFromX nx no x = .ok g ∧
      (∀ a b, a < no → b < no → d.eval nx g 0 a b + d.eval nx g β a b = if a = b then -1 else 0) ∧
      normRes d nx no g = 0 := by
  obtain ⟨g, hg, hlen, hread, hr, hlow, -⟩ := ok hx
  obtain ⟨h1, h2⟩ := (jump_iff g hr x hlen hread).1 (hf.2.1 rfl)
  exact ⟨g, hg, jump_all hβ hd (fun y i hi => hr y i i hi hi) hlow h1 h2⟩

/-- real part of a tensor -/
def re4 (U : Arr4) : Arr4 := fun a b c e => ((U a b c e).re : ℂ)

theorem densityMat_re {d : Driver} {nx no : ℕ} {U : Arr4} {g : Arr} (hg : RealArr no g) (a b : ℕ) (ha : a < no) (hb : b < no) :
    densityMat d nx no (re4 U) g a b = ((densityMat d nx no U g a b).re : ℂ) := by
  have hsum : ∀ (f : ℕ → ℝ) c e, c < no → e < no →
      ∑ x ∈ Finset.range nx, (f x : ℂ) * g x c e = ((∑ x ∈ Finset.range nx, f x * (g x c e).re : ℝ) : ℂ) := by
    intro f c e hc he
    rw [Complex.ofReal_sum]
    refine Finset.sum_congr rfl fun x _ => ?_
    rw [Complex.ofReal_mul]
    congr 1
    exact Complex.ext (by simp) (by simp [hg x c e hc he])
  rw [densityMat_eq d nx no _ g a b ha hb, densityMat_eq d nx no _ g a b ha hb, Complex.add_re, Complex.ofReal_add,
    hsum d.dK a b ha hb, Complex.ofReal_re]
  congr 1
  rw [Complex.re_sum, Complex.ofReal_sum]
  refine Finset.sum_congr rfl fun c hc => ?_
  rw [Complex.re_sum, Complex.ofReal_sum]
  refine Finset.sum_congr rfl fun e he => ?_
  rw [hsum d.rho c e (Finset.mem_range.1 hc) (Finset.mem_range.1 he), Complex.re_mul_ofReal, Complex.ofReal_mul]
  rfl

/-- the density constraint, in terms of the Green's function -/
theorem density_iff {d : Driver} {nx no : ℕ} {x : RVec} {g : Arr} (hg : gFromX nx no x = .ok g) {h : ℕ → ℕ → ℂ} {U : Arr4} :
    (∃ v, densityConstraint d nx no U x = .ok v ∧ ∀ m < v.len, v.get m = (matVec no h).get m) ↔
      (∀ i < no, (densityMat d nx no U g i i).re = (h i i).re) ∧
      ∀ u ∈ triu no, (densityMat d nx no U g u.1 u.2).re = (h u.1 u.2).re := by
  rw [← matVec_iff]
  have e : densityConstraint d nx no U x = .ok (matVec no (densityMat d nx no U g)) := by
    unfold densityConstraint
    rw [hg]
    rfl
  constructor
  · rintro ⟨v, hv, hvh⟩
    rw [e] at hv
    rwa [Except.ok.inj hv]
  · exact fun hv => ⟨_, e, hv⟩

/-- C125, the density: for up to three orbitals, a real symmetric quadratic term and a real interaction tensor of a hermitian operator,
every parameter vector that meets the density constraint gives a Green's function with `G'(0) + G'(beta) = h + meanField(-G(beta))` in
all components. Missing: more than three orbitals, and complex input (`C125_imaginary_violated`). -/
theorem C125_density_partial {β : ℝ} (hβ : β ≠ 0) {d : Driver} (hd : IsDriver β d) {nx no : ℕ} (hno : no ≤ 3) {x : RVec}
    (hx : x.len = nx * (no + no * (no - 1) / 2)) {h : ℕ → ℕ → ℂ} {U : Arr4}
    (hh : ∀ a b, a < no → b < no → h b a = h a b ∧ (h a b).im = 0)
    (hU : ∀ a b c e, a < no → b < no → c < no → e < no → U a b c e = U b a e c ∧ (U a b c e).im = 0) {pos disc : Bool}
    (hf : Feasible d nx no h U pos disc true x) :
    ∃ g, gFromX nx no x = .ok g ∧
      ∀ a b : Fin no, deriv (fun τ => d.eval nx g τ a b) 0 + deriv (fun τ => d.eval nx g τ a b) β
        = h a b + HartreeFock.meanField (tensorOf no U) (fun c e => -d.eval nx g β c e) a b := by
  obtain ⟨g, hg, -, -, hr, -, hherm⟩ := ok hx
  obtain ⟨h1, h2⟩ := (density_iff hg).1 (hf.2.2 rfl)
  have hTH : TensorHermitian no U := fun a b c e ha hb hc he => by
    rw [Complex.conj_eq_iff_im.2 (hU a b c e ha hb hc he).2, (hU a b c e ha hb hc he).1]
  have hD := fun a b ha hb => densityMat_hermitian (d := d) hTH (hherm hno) a b ha hb
  have hDr : ∀ a b, a < no → b < no → (densityMat d nx no U g a b).im = 0 := by
    intro a b ha hb
    have e1 : densityMat d nx no U g a b = densityMat d nx no (re4 U) g a b := by
      rw [densityMat_eq d nx no _ g a b ha hb, densityMat_eq d nx no _ g a b ha hb]
      congr 1
      refine Finset.sum_congr rfl fun c hc => Finset.sum_congr rfl fun e he => ?_
      congr 1
      exact Complex.ext (by simp [re4]) (by
        simp [re4, (hU b a c e hb ha (Finset.mem_range.1 hc) (Finset.mem_range.1 he)).2])
    rw [e1, densityMat_re hr a b ha hb, Complex.ofReal_im]
  have hall : ∀ a b, a < no → b < no → densityMat d nx no U g a b = h a b := by
    intro a b ha hb
    refine Complex.ext ?_ (by rw [hDr a b ha hb, (hh a b ha hb).2])
    refine cases_index no (P := fun a b => (densityMat d nx no U g a b).re = (h a b).re) h1 h2 ?_ a b ha hb
    intro l hl
    have hl' := (mem_tril no l).1 hl
    have := h2 (l.2, l.1) ((mem_triu no _).2 ⟨hl'.2.1, hl'.1, hl'.2.2⟩)
    simp only at this
    rw [hD l.2 l.1 hl'.2.1 hl'.1, Complex.conj_re, (hh l.2 l.1 hl'.2.1 hl'.1).1, this]
  refine ⟨g, hg, fun a b => ?_⟩
  have := hall a b a.2 b.2
  rw [densityMat_greens hβ hd nx no U g a b, sub_eq_iff_eq_add] at this
  exact this

/-- C125, complex input: nothing in the constraints depends on the imaginary parts of the quadratic term and of the interaction. They are
dropped without an error, and the fit is the one of another Hamiltonian. -/
theorem C125_imaginary_violated {d : Driver} {nx no : ℕ} {x : RVec} (hx : x.len = nx * (no + no * (no - 1) / 2))
    {h : ℕ → ℕ → ℂ} {U : Arr4} {pos disc dens : Bool} :
    Feasible d nx no h U pos disc dens x ↔
      Feasible d nx no (fun a b => ((h a b).re : ℂ)) (re4 U) pos disc dens x := by
  obtain ⟨g, hg, -, -, hr, -, -⟩ := ok hx
  unfold Feasible
  refine and_congr Iff.rfl (and_congr Iff.rfl (imp_congr_right fun _ => ?_))
  rw [density_iff hg, density_iff hg]
  refine and_congr (forall₂_congr fun i hi => ?_) (forall₂_congr fun u hu => ?_)
  · rw [densityMat_re hr i i hi hi, Complex.ofReal_re, Complex.ofReal_re]
  · have hu' := (mem_triu no u).1 hu
    rw [densityMat_re hr u.1 u.2 hu'.1 hu'.2.1, Complex.ofReal_re, Complex.ofReal_re]

/-- C125, complex input: for every real interaction and every quadratic term with an imaginary component the documented relation of slopes
and density matrix fails for every result of the fit, whether or not the constraint is met. -/
theorem C125_complex_violated {β : ℝ} (hβ : β ≠ 0) {d : Driver} (hd : IsDriver β d) {nx no : ℕ} {x : RVec}
    (hx : x.len = nx * (no + no * (no - 1) / 2)) {h : ℕ → ℕ → ℂ} {U : Arr4}
    (hU : ∀ a b c e, a < no → b < no → c < no → e < no → (U a b c e).im = 0) (a b : Fin no) (him : (h a b).im ≠ 0) :
    ∃ g, gFromX nx no x = .ok g ∧
      deriv (fun τ => d.eval nx g τ a b) 0 + deriv (fun τ => d.eval nx g τ a b) β
        ≠ h a b + HartreeFock.meanField (tensorOf no U) (fun c e => -d.eval nx g β c e) a b := by
  obtain ⟨g, hg, -, -, hr, -, -⟩ := ok hx
  refine ⟨g, hg, fun heq => him ?_⟩
  rw [← sub_eq_iff_eq_add, ← densityMat_greens hβ hd nx no U g a b] at heq
  have e1 : densityMat d nx no U g a b = densityMat d nx no (re4 U) g a b := by
    rw [densityMat_eq d nx no _ g a b a.2 b.2, densityMat_eq d nx no _ g a b a.2 b.2]
    congr 1
    refine Finset.sum_congr rfl fun c hc => Finset.sum_congr rfl fun e he => ?_
    congr 1
    exact Complex.ext (by simp [re4]) (by
      simp [re4, hU b a c e b.2 a.2 (Finset.mem_range.1 hc) (Finset.mem_range.1 he)])
  rw [← heq, e1, densityMat_re hr a b a.2 b.2, Complex.ofReal_im]

/-- C125, the target: among real Green's functions the distance to the real part of the input and the distance to the input itself differ
by a constant, so that the real fit has the same minimisers as a fit to the full data. -/
theorem C125_target {d : Driver} {nx no : ℕ} {g : Arr} (hg : RealArr no g) (taus : List ℝ) (data : ℕ → ℕ → ℕ → ℂ) :
    targetSq d nx no taus data false g = targetSq d nx no taus data true g
      + ∑ i ∈ Finset.range taus.length, ∑ a ∈ Finset.range no, ∑ b ∈ Finset.range no, (data i a b).im ^ 2 := by
  unfold targetSq
  simp only [← Finset.sum_add_distrib]
  refine Finset.sum_congr rfl fun i _ => Finset.sum_congr rfl fun a ha => Finset.sum_congr rfl fun b hb => ?_
  have := eval_im (d := d) (nx := nx) hg (taus.getD i 0) a b (Finset.mem_range.1 ha) (Finset.mem_range.1 hb)
  simp only [Bool.false_eq_true, if_false, if_true, Complex.normSq_apply, Complex.sub_re, Complex.sub_im, Complex.ofReal_re,
    Complex.ofReal_im, this]
  ring

/-- the parameters of a real symmetric Green's function give it back, up to three orbitals -/
theorem inverse {nx no : ℕ} (hno : no ≤ 3) {g : Arr} (hr : RealArr no g)
    (hs : ∀ y a b, y < nx → a < no → b < no → g y b a = g y a b) :
    (xFromG nx no g).len = nx * (no + no * (no - 1) / 2) ∧
    ∃ g', gFromX nx no (xFromG nx no g) = .ok g' ∧ ∀ y a b, y < nx → a < no → b < no → g' y a b = g y a b := by
  have hl : (xFromG nx no g).len = nx * (no + no * (no - 1) / 2) := by
    simp only [xFromG, split, Symmetrizer.getXD, Symmetrizer.getXU, gather, length_diag, length_triu]
    ring
  refine ⟨hl, ?_⟩
  obtain ⟨g', hg', -, hread, hr', -, hherm⟩ := ok hl
  refine ⟨g', hg', ?_⟩
  have hd : ∀ y i, y < nx → i < no → (g' y i i).re = (g y i i).re := by
    intro y i hy hi
    have hlt : y * no + i < nx * no := by
      calc y * no + i < y * no + no := by omega
        _ = (y + 1) * no := by ring
        _ ≤ nx * no := Nat.mul_le_mul_right _ hy
    have := hread (y * no + i) (by rw [hl]; nlinarith [Nat.zero_le (nx * (no * (no - 1) / 2))])
    obtain ⟨e1, e2⟩ := divmod y i no hi
    have e3 : (diag no).getD i (0, 0) = (i, i) := by
      rw [List.getD_eq_getElem _ _ (by rw [length_diag]; exact hi)]
      simp [diag]
    simp only [xFromG, split, Symmetrizer.getXD, gather, length_diag, if_pos hlt, e1, e2, e3] at this
    exact this
  have hu : ∀ y u, y < nx → u ∈ triu no → (g' y u.1 u.2).re = (g y u.1 u.2).re := by
    intro y u hy hu
    obtain ⟨t, ht, hut⟩ : ∃ t < (triu no).length, (triu no).getD t (0, 0) = u :=
      ⟨_, List.idxOf_lt_length_of_mem hu, getD_idxOf hu _⟩
    obtain ⟨e1, e2⟩ := divmod y t (triu no).length ht
    have hlt : y * (triu no).length + t < nx * (triu no).length := by
      calc y * (triu no).length + t < y * (triu no).length + (triu no).length := by omega
        _ = (y + 1) * (triu no).length := by ring
        _ ≤ nx * (triu no).length := Nat.mul_le_mul_right _ hy
    have hL : (xFromG nx no g).len = nx * no + nx * (triu no).length := by
      simp only [xFromG, split, Symmetrizer.getXD, Symmetrizer.getXU, gather, length_diag]
    have r1 := hread (nx * no + (y * (triu no).length + t)) (by omega)
    have a1 : ¬ nx * no + (y * (triu no).length + t) < nx * no := by omega
    simp only [xFromG, split, Symmetrizer.getXD, Symmetrizer.getXU, gather, length_diag, if_neg a1,
      Nat.add_sub_cancel_left, e1, e2, hut] at r1
    exact r1
  intro y a b hy ha hb
  refine Complex.ext ?_ (by rw [hr' y a b ha hb, hr y a b ha hb])
  refine cases_index no (P := fun a b => (g' y a b).re = (g y a b).re) (fun i hi => hd y i hy hi) (fun u hu' => hu y u hy hu') ?_ a b
    ha hb
  intro l hl
  have hl' := (mem_tril no l).1 hl
  have := hu y (l.2, l.1) hy ((mem_triu no _).2 ⟨hl'.2.1, hl'.1, hl'.2.2⟩)
  simp only at this
  rw [hherm hno y l.2 l.1 hy hl'.2.1 hl'.1, Complex.conj_re, hs y l.2 l.1 hy hl'.2.1 hl'.1, this]

/-- C125, completeness: for up to three orbitals every real symmetric Green's function in the representation that has the jump and obeys the
relation of slopes and density matrix meets all constraints, and the fit can return it. -/
theorem C125_complete_partial {β : ℝ} (hβ : β ≠ 0) {d : Driver} (hd : IsDriver β d) {nx no : ℕ} (hno : no ≤ 3) {g : Arr}
    (hr : RealArr no g) (hs : ∀ y a b, y < nx → a < no → b < no → g y b a = g y a b) {h : ℕ → ℕ → ℂ} {U : Arr4}
    (hjump : ∀ a b : Fin no, d.eval nx g 0 a b + d.eval nx g β a b = if a = b then -1 else 0)
    (hslope : ∀ a b : Fin no, deriv (fun τ => d.eval nx g τ a b) 0 + deriv (fun τ => d.eval nx g τ a b) β
        = h a b + HartreeFock.meanField (tensorOf no U) (fun c e => -d.eval nx g β c e) a b) (disc dens : Bool) :
    Feasible d nx no h U false disc dens (xFromG nx no g) ∧
    ∃ g', gFromX nx no (xFromG nx no g) = .ok g' ∧
      ∀ τ a b, a < no → b < no → d.eval nx g' τ a b = d.eval nx g τ a b := by
  obtain ⟨hl, g', hg', heq⟩ := inverse hno hr hs
  have hH : Hermitian nx no g := fun y a b hy ha hb => by
    rw [Complex.conj_eq_iff_im.2 (hr y a b ha hb), hs y a b hy ha hb]
  have hc := (C102_complete_partial hβ hd hno hH hjump hslope true true).1
  refine ⟨⟨fun h => (by cases h), fun _ => ?_, fun _ => ?_⟩, g', hg', fun τ a b ha hb => eval_congr heq τ a b ha hb⟩
  · exact (jump_iff g hr _ rfl fun m _ => rfl).2 ((FitDlr.jump_iff g _ rfl fun m _ => rfl).1 (hc.2.1 rfl))
  · have hD : ∀ a b : Fin no, densityMat d nx no U g' a b = h a b := by
      intro a b
      have e1 : densityMat d nx no U g' a b = densityMat d nx no U g a b := by
        rw [densityMat_eq d nx no U g' a b a.2 b.2, densityMat_eq d nx no U g a b a.2 b.2]
        congr 1
        · exact Finset.sum_congr rfl fun x hx => by rw [heq x a b (Finset.mem_range.1 hx) a.2 b.2]
        · refine Finset.sum_congr rfl fun c hc => Finset.sum_congr rfl fun e he => ?_
          congr 1
          exact Finset.sum_congr rfl fun x hx => by
            rw [heq x c e (Finset.mem_range.1 hx) (Finset.mem_range.1 hc) (Finset.mem_range.1 he)]
      rw [e1, densityMat_greens hβ hd nx no U g a b, hslope a b, add_sub_cancel_right]
    refine (density_iff hg').2 ⟨fun i hi => ?_, fun u hu => ?_⟩
    · rw [hD ⟨i, hi⟩ ⟨i, hi⟩]
    · have hu' := (mem_triu no u).1 hu
      exact congrArg Complex.re (hD ⟨u.1, hu'.1⟩ ⟨u.2, hu'.2.1⟩)

/-- Example: two orbitals coupled by an imaginary hopping, one basis function at frequency zero: the parameters of the atomic limit meet all
constraints. -/
example : Feasible (triqsDriver 2 fun _ => 0) 1 2 (fun a b => if a = b then 0 else if a < b then Complex.I else -Complex.I)
    (fun _ _ _ _ => 0) false true true ⟨3, fun m => if m < 2 then 1 else 0⟩ := by
  have hd : IsDriver 2 (triqsDriver 2 fun _ => 0) := .inl ⟨_, rfl⟩
  obtain ⟨g, hg, hlen, hread, hr, -⟩ := ok (nx := 1) (no := 2) (x := ⟨3, fun m => if m < 2 then 1 else 0⟩) rfl
  have h0 : (g 0 0 0).re = 1 := hread 0 (by norm_num)
  have h1 : (g 0 1 1).re = 1 := hread 1 (by norm_num)
  have h2 : (g 0 0 1).re = 0 := by
    have h := hread 2 (by norm_num)
    have e : (triu 2)[0]'(by decide) = (0, 1) := by decide
    simpa [xFromG, split, Symmetrizer.getXD, Symmetrizer.getXU, gather, length_diag, length_triu, e] using h
  have htr : ∀ u, u ∈ triu 2 → u = (0, 1) := by
    intro u hu
    have : triu 2 = [(0, 1)] := by decide
    rw [this] at hu
    simpa using hu
  refine ⟨by simp, fun _ => (jump_iff g hr _ hlen hread).2 ⟨fun i hi => ?_, fun u hu => ?_⟩, fun _ => (density_iff hg).2 ⟨fun i hi => ?_,
    fun u hu => ?_⟩⟩
  · interval_cases i <;> simp [h0, h1, triqsDriver]
  · rw [htr u hu]
    refine Complex.ext ?_ ?_ <;> simp [h2, hr 0 0 1]
  · rw [densityMat_eq _ _ _ _ _ _ _ hi hi]
    simp [triqsDriver]
  · rw [htr u hu, densityMat_eq _ _ _ _ _ _ _ (by norm_num) (by norm_num)]
    simp [triqsDriver]

end Verif.FitDlr.RealFit
