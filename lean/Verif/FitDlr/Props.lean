import Verif.FitDlr.Lemmas
import Mathlib.Tactic.IntervalCases

/-!
# Properties of the hermitian parametrisations of the constrained fit (C45)
-/

namespace Verif.FitDlr

open Verif.Symmetries (triu tril mem_triu mem_tril)

/-- every time slice is a hermitian matrix -/
def Hermitian (nx no : ℕ) (g : Arr) : Prop :=
  ∀ x a b, x < nx → a < no → b < no → g x b a = (starRingEnd ℂ) (g x a b)

/-- equal length and entries -/
def Vec.Eq (v w : Vec) : Prop := v.len = w.len ∧ ∀ m < v.len, v.get m = w.get m

/-- real entries -/
def Vec.Real (v : Vec) : Prop := ∀ m < v.len, (starRingEnd ℂ) (v.get m) = v.get m

/-! ## Symmetrizer -/

/-- The array built from the parameters. -/
theorem Symmetrizer.gFromX_ok {nx no : ℕ} {xd xu : Vec} (hd : xd.len = nx * no)
    (hu : xu.len = nx * (no * (no - 1) / 2)) :
    ∃ g, Symmetrizer.gFromX nx no xd xu = .ok g ∧
      (∀ x i, i < no → g x i i = xd.get (x * no + i)) ∧
      (∀ x u, u ∈ triu no → g x u.1 u.2 = xu.get (x * (no * (no - 1) / 2) + (triu no).idxOf u)) ∧
      (∀ x l, l ∈ tril no → g x l.1 l.2 = (starRingEnd ℂ)
        (let u := (triu no).getD ((tril no).idxOf l) (0, 0)
         if u ∈ triu no then xu.get (x * (no * (no - 1) / 2) + (triu no).idxOf u) else 0)) := by
  unfold Symmetrizer.gFromX Symmetrizer.setXU Symmetrizer.setXD
  rw [reshape_ok hd, reshape_ok hu]
  refine ⟨_, rfl, ?_, ?_, ?_⟩
  · intro x i hi
    have hm : (i, i) ∈ diag no := (mem_diag no _).2 ⟨hi, rfl⟩
    simp only [assign, if_pos hm]
    congr 2
    have h1 := idxOf_getD (diag_nodup no) (t := i) (by rwa [length_diag]) (0, 0)
    rwa [List.getD_eq_getElem _ _ (by rwa [length_diag]), show (diag no)[i]'(by
      rwa [length_diag]) = (i, i) by simp [diag]] at h1
  · rintro x ⟨a, b⟩ hm
    have h' := (mem_triu no _).1 hm
    have h1 : (a, b) ∉ diag no := fun h => by have := (mem_diag no _).1 h; simp only at *; omega
    have h2 : (a, b) ∉ tril no := fun h => by have := (mem_tril no _).1 h; simp only at *; omega
    simp only [assign, if_pos hm, if_neg h1, if_neg h2]
  · rintro x ⟨a, b⟩ hm
    have h' := (mem_tril no _).1 hm
    have h1 : (a, b) ∉ diag no := fun h => by have := (mem_diag no _).1 h; simp only at *; omega
    simp only [assign, if_pos hm, if_neg h1]

/-- C45 (reading back, `Symmetrizer`): for every number of orbitals the parameters that were set are
read back. -/
theorem C45_readback {nx no : ℕ} {xd xu : Vec} (hd : xd.len = nx * no)
    (hu : xu.len = nx * (no * (no - 1) / 2)) :
    ∃ g, Symmetrizer.gFromX nx no xd xu = .ok g ∧ (Symmetrizer.getXD nx no g).Eq xd ∧
      (Symmetrizer.getXU nx no g).Eq xu := by
  obtain ⟨g, hg, h1, h2, -⟩ := Symmetrizer.gFromX_ok hd hu
  refine ⟨g, hg, ⟨?_, ?_⟩, ⟨?_, ?_⟩⟩
  · rw [hd]; simp [Symmetrizer.getXD, gather, length_diag]
  · intro m hm
    refine gather_get (fun x _ t ht => ?_) m hm
    rw [length_diag] at ht ⊢
    simp only
    rw [List.getD_eq_getElem _ _ (by rwa [length_diag]), show (diag no)[t]'(by
      rwa [length_diag]) = (t, t) by simp [diag]]
    exact h1 x t ht
  · rw [hu]; simp [Symmetrizer.getXU, gather, length_triu]
  · intro m hm
    refine gather_get (fun x _ t ht => ?_) m hm
    simp only
    rw [h2 x _ (getD_mem ht _), idxOf_getD (triu_nodup no) ht, length_triu]

/-- C45 (hermitian, `Symmetrizer`), partial: with at most three orbitals real diagonal parameters
and arbitrary upper triangle parameters give a hermitian matrix in every slice. Missing: more
orbitals, where the claim fails (`C45_hermitian_violated`). -/
theorem C45_hermitian_partial {nx no : ℕ} (hno : no ≤ 3) {xd xu : Vec} (hd : xd.len = nx * no)
    (hu : xu.len = nx * (no * (no - 1) / 2)) (hr : xd.Real) :
    ∃ g, Symmetrizer.gFromX nx no xd xu = .ok g ∧ Hermitian nx no g := by
  obtain ⟨g, hg, h1, h2, h3⟩ := Symmetrizer.gFromX_ok hd hu
  refine ⟨g, hg, ?_⟩
  have hpair : ∀ u ∈ triu no, (triu no).getD ((tril no).idxOf (u.2, u.1)) (0, 0) = u := by
    interval_cases no <;> decide
  have key : ∀ x a b, a < no → b < no → a < b → g x b a = (starRingEnd ℂ) (g x a b) := by
    intro x a b ha hb hab
    have hmu : (a, b) ∈ triu no := (mem_triu no _).2 ⟨ha, hb, hab⟩
    have hml : (b, a) ∈ tril no := (mem_tril no _).2 ⟨hb, ha, hab⟩
    have e1 := h2 x (a, b) hmu
    have e2 := h3 x (b, a) hml
    have e3 := hpair (a, b) hmu
    simp only at e1 e2 e3
    rw [e1, e2, e3, if_pos hmu]
  intro x a b hx ha hb
  rcases lt_trichotomy a b with h | h | h
  · exact key x a b ha hb h
  · subst h
    rw [h1 x a ha, hr]
    rw [hd]
    calc x * no + a < x * no + no := by omega
      _ = (x + 1) * no := by ring
      _ ≤ nx * no := Nat.mul_le_mul_right _ hx
  · rw [key x b a hb ha h, Complex.conj_conj]

/-- C45 is violated by `Symmetrizer` for every number of orbitals from four on: there are parameters
(zero diagonal) whose matrix is not hermitian. -/
theorem C45_hermitian_violated {nx no : ℕ} (h4 : 4 ≤ no) (hx : 0 < nx) :
    ∃ xd xu : Vec, xd.len = nx * no ∧ xu.len = nx * (no * (no - 1) / 2) ∧ xd.Real ∧
      ∃ g, Symmetrizer.gFromX nx no xd xu = .ok g ∧ ¬ Hermitian nx no g := by
  obtain ⟨m, rfl⟩ : ∃ m, no = m + 4 := ⟨no - 4, by omega⟩
  obtain ⟨ru, hu, -⟩ := Verif.Symmetries.triu_four m
  obtain ⟨rl, hl⟩ := Verif.Symmetries.tril_four m
  set xd : Vec := ⟨nx * (m + 4), fun _ => 0⟩
  set xu : Vec := ⟨nx * ((m + 4) * (m + 4 - 1) / 2), fun t => if t = 2 then 1 else 0⟩
  obtain ⟨g, hg, h1, h2, h3⟩ := Symmetrizer.gFromX_ok (nx := nx) (no := m + 4) (xd := xd) (xu := xu)
    rfl rfl
  refine ⟨xd, xu, rfl, rfl, fun _ _ => map_zero _, g, hg, ?_⟩
  intro hh
  have e := hh 0 0 3 hx (by omega) (by omega)
  have m1 : (0, 3) ∈ triu (m + 4) := (mem_triu _ _).2 ⟨by omega, by omega, by omega⟩
  have m2 : (3, 0) ∈ tril (m + 4) := (mem_tril _ _).2 ⟨by omega, by omega, by omega⟩
  have e1 := h2 0 (0, 3) m1
  have e2 := h3 0 (3, 0) m2
  simp only at e1 e2
  have i1 : (triu (m + 4)).idxOf (0, 3) = 2 := by
    rw [hu]; rfl
  have i2 : (tril (m + 4)).idxOf (3, 0) ≠ 2 := by
    intro hc
    have := getD_idxOf m2 (0, 0)
    rw [hc, hl] at this
    simp at this
  rw [e1, e2, i1] at e
  have hz : (if (triu (m + 4)).getD ((tril (m + 4)).idxOf (3, 0)) (0, 0) ∈ triu (m + 4) then
      xu.get (0 * ((m + 4) * (m + 4 - 1) / 2) + (triu (m + 4)).idxOf
        ((triu (m + 4)).getD ((tril (m + 4)).idxOf (3, 0)) (0, 0))) else 0) = 0 := by
    split_ifs with h
    · rcases lt_or_ge ((tril (m + 4)).idxOf (3, 0)) (triu (m + 4)).length with hlt | hge
      · rw [idxOf_getD (triu_nodup _) hlt]
        simp only [zero_mul, zero_add]
        exact if_neg i2
      · exfalso
        rw [List.getD_eq_default _ _ hge] at h
        have := (mem_triu _ _).1 h
        simp at this
    · rfl
  rw [hz] at e
  simp [xu] at e

/-- the hypotheses are met, e.g., by three orbitals, two slices and the vectors `1, 2, ...` -/
example : ∃ g, Symmetrizer.gFromX 2 3 ⟨6, fun m => m⟩ ⟨6, fun m => m + Complex.I⟩ = .ok g ∧
    Hermitian 2 3 g := by
  refine C45_hermitian_partial (le_refl 3) rfl rfl fun m _ => ?_
  simp

/-- C45 (the fit): every real parameter vector of the right length is recovered from the Green's
function it is turned into, for every number of orbitals. -/
theorem C45_fit_roundtrip {nx no : ℕ} {x : RVec}
    (hx : x.len = nx * (no + 2 * (no * (no - 1) / 2))) :
    ∃ g, Symmetrizer.fitGFromX nx no x = .ok g ∧ (Symmetrizer.fitXFromG nx no g).len = x.len ∧
      ∀ m < x.len, (Symmetrizer.fitXFromG nx no g).get m = x.get m := by
  set N := no * (no - 1) / 2 with hN
  have hlen : x.len = nx * no + 2 * (nx * N) := by rw [hx]; ring
  have hmin : min (nx * no) x.len = nx * no := by omega
  have hrest : x.len - nx * no = 2 * (nx * N) := by omega
  have hhalf : (2 * (nx * N)) / 2 = nx * N := by omega
  have hmerge : mergeReIm nx no x = .ok (⟨nx * no, fun m => x.get m⟩,
      ⟨nx * N, fun m => x.get (nx * no + m) + Complex.I * x.get (nx * no + nx * N + m)⟩) := by
    unfold mergeReIm
    simp only [hmin, hrest, hhalf]
    rw [if_pos (by omega)]
  obtain ⟨g, hg, ⟨hd1, hd2⟩, ⟨hu1, hu2⟩⟩ := C45_readback (nx := nx) (no := no)
    (xd := ⟨nx * no, fun m => x.get m⟩)
    (xu := ⟨nx * N, fun m => x.get (nx * no + m) + Complex.I * x.get (nx * no + nx * N + m)⟩)
    rfl rfl
  simp only at hd1 hu1 hd2 hu2
  refine ⟨g, ?_, ?_, ?_⟩
  · unfold Symmetrizer.fitGFromX
    rw [hmerge]
    exact hg
  · simp only [Symmetrizer.fitXFromG, splitReIm, hd1, hu1]
    omega
  · intro m hm
    simp only [Symmetrizer.fitXFromG, splitReIm]
    by_cases h1 : m < nx * no
    · rw [if_pos (by omega), hd2 m (by omega)]
      simp
    · rw [if_neg (by omega)]
      by_cases h2 : m < nx * no + nx * N
      · rw [if_pos (by omega), hd1, hu2 _ (by omega)]
        have e : nx * no + (m - nx * no) = m := by omega
        rw [e]
        simp
      · rw [if_neg (by omega), hd1, hu1, hu2 _ (by omega)]
        have e : nx * no + nx * N + (m - nx * no - nx * N) = m := by omega
        rw [e]
        simp

/-! ## BlockSymmetrizer -/

theorem mem_uniqueNonZero (l : List ℤ) (t : ℤ) :
    t ∈ BlockSymmetrizer.uniqueNonZero l ↔ t ∈ l ∧ t ≠ 0 := by
  simp [BlockSymmetrizer.uniqueNonZero]

theorem uniqueNonZero_nodup (l : List ℤ) : (BlockSymmetrizer.uniqueNonZero l).Nodup := by
  unfold BlockSymmetrizer.uniqueNonZero
  exact ((List.perm_insertionSort _ _).nodup_iff.2 (List.nodup_dedup l)).filter _

/-- Result of writing the terms with labels `ts`, starting with column `t`. -/
theorem setTerms_spec (v : Vec) (nx n : ℕ) (pos : List (ℕ × ℕ)) (B : ℕ → ℕ → ℤ) (ts : List ℤ)
    (hts : ts.Nodup) (t0 : ℕ) (g : Arr)
    (hlen : ts ≠ [] → v.len = nx * n ∧ t0 + ts.length ≤ n) :
    ∃ g', BlockSymmetrizer.setTerms v nx n
        (ts.map fun t => pos.filter fun u => B u.1 u.2 = t) t0 g = .ok g' ∧
      ∀ x u, g' x u.1 u.2 = if u ∈ pos ∧ B u.1 u.2 ∈ ts then
        v.get (x * n + (t0 + ts.idxOf (B u.1 u.2))) else g x u.1 u.2 := by
  induction ts generalizing t0 g with
  | nil => exact ⟨g, rfl, fun x u => by simp⟩
  | cons t ts ih =>
    obtain ⟨hl, hn⟩ := hlen (by simp)
    rw [List.length_cons] at hn
    have hnd := List.nodup_cons.1 hts
    simp only [List.map_cons, BlockSymmetrizer.setTerms, reshape_ok hl]
    obtain ⟨g', hg', h⟩ := ih hnd.2 (t0 + 1) (assign (pos.filter fun u => B u.1 u.2 = t)
      (fun x _ => v.get (x * n + t0)) g) fun _ => ⟨hl, by omega⟩
    refine ⟨g', ?_, ?_⟩
    · have hnot : ¬ n ≤ t0 := by omega
      simp only [if_neg hnot]
      exact hg'
    · intro x u
      rw [h x u]
      by_cases hp : u ∈ pos
      · by_cases ht : B u.1 u.2 = t
        · have hnot : B u.1 u.2 ∉ ts := by rw [ht]; exact hnd.1
          have hm : u ∈ pos.filter fun u => B u.1 u.2 = t := by
            rw [List.mem_filter]; exact ⟨hp, by simpa using ht⟩
          rw [if_neg (by tauto), if_pos ⟨hp, by simp [ht]⟩]
          simp only [assign]
          rw [if_pos hm, ht, List.idxOf_cons_self, add_zero]
        · have hm : u ∉ pos.filter fun u => B u.1 u.2 = t := by
            rw [List.mem_filter]; simp [ht]
          by_cases hts' : B u.1 u.2 ∈ ts
          · rw [if_pos ⟨hp, hts'⟩, if_pos ⟨hp, List.mem_cons_of_mem _ hts'⟩,
              List.idxOf_cons_ne _ (Ne.symm ht)]
            congr 1
            simp only [Nat.succ_eq_add_one]
            ring
          · rw [if_neg (by tauto), if_neg (by simp only [List.mem_cons]; tauto)]
            simp only [assign]
            rw [if_neg hm]
      · rw [if_neg (by tauto), if_neg (by tauto)]
        simp only [assign]
        rw [if_neg]
        intro hm
        exact hp (List.mem_filter.1 hm).1

theorem firsts_spec (pos : List (ℕ × ℕ)) (B : ℕ → ℕ → ℤ) (ts : List ℤ)
    (hts : ∀ t ∈ ts, ∃ u ∈ pos, B u.1 u.2 = t) (hnd : ts.Nodup) (k : ℕ) (hk : k < ts.length) :
    let u := (BlockSymmetrizer.firsts (ts.map fun t => pos.filter fun u => B u.1 u.2 = t)).getD k (0, 0)
    u ∈ pos ∧ B u.1 u.2 ∈ ts ∧ ts.idxOf (B u.1 u.2) = k := by
  simp only
  have hl : k < (BlockSymmetrizer.firsts
      (ts.map fun t => pos.filter fun u => B u.1 u.2 = t)).length := by
    simpa [BlockSymmetrizer.firsts] using hk
  rw [List.getD_eq_getElem _ _ hl]
  obtain ⟨u, hu, hB⟩ := hts ts[k] (List.getElem_mem hk)
  have e : (BlockSymmetrizer.firsts (ts.map fun t => pos.filter fun u => B u.1 u.2 = t))[k]'hl
      = (pos.filter fun u => B u.1 u.2 = ts[k]).headD (0, 0) := by
    simp [BlockSymmetrizer.firsts]
  rw [e]
  have hne : (pos.filter fun u => B u.1 u.2 = ts[k]) ≠ [] := by
    intro h
    have : u ∈ pos.filter fun u => B u.1 u.2 = ts[k] := by
      rw [List.mem_filter]; exact ⟨hu, by simpa using hB⟩
    rw [h] at this
    simp at this
  have hhead : (pos.filter fun u => B u.1 u.2 = ts[k]).headD (0, 0)
      ∈ pos.filter fun u => B u.1 u.2 = ts[k] := by
    rw [List.headD_eq_head?_getD, List.head?_eq_some_head hne]
    exact List.head_mem hne
  have h2 := List.mem_filter.1 hhead
  have h3 : B ((pos.filter fun u => B u.1 u.2 = ts[k]).headD (0, 0)).1
      ((pos.filter fun u => B u.1 u.2 = ts[k]).headD (0, 0)).2 = ts[k] := by simpa using h2.2
  refine ⟨h2.1, ?_, ?_⟩
  · rw [h3]; exact List.getElem_mem hk
  · rw [h3, hnd.idxOf_getElem]

open BlockSymmetrizer in
/-- The array built by a block symmetriser. -/
theorem block_ok {nx no : ℕ} {B : ℕ → ℕ → ℤ} {xd xu : Vec} (hx : 0 < nx)
    (hd : xd.len = nx * (diagTerms no B).length) (hu : triuTerms no B ≠ [] →
      xu.len = nx * (no * (no - 1) / 2) ∧ (triuTerms no B).length ≤ no * (no - 1) / 2) :
    ∃ g, gFromX nx no B xd xu = .ok g ∧
      (∀ x i, i < no → g x i i = if B i i ∈ diagTerms no B then
        xd.get (x * (diagTerms no B).length + (diagTerms no B).idxOf (B i i)) else 0) ∧
      (∀ x u, u ∈ triu no → g x u.1 u.2 = if B u.1 u.2 ∈ triuTerms no B then
        xu.get (x * (no * (no - 1) / 2) + (triuTerms no B).idxOf (B u.1 u.2)) else 0) ∧
      ∀ x u, u ∈ triu no → g x u.2 u.1 = (starRingEnd ℂ) (g x u.1 u.2) := by
  obtain ⟨g1, hg1, h1⟩ := setTerms_spec xu nx (no * (no - 1) / 2) (triu no) B (triuTerms no B)
    (uniqueNonZero_nodup _) 0 (fun _ _ _ => 0) (by simpa using hu)
  set g2 : Arr := fun x a b => g1 x a b + (starRingEnd ℂ) (g1 x b a) with hg2
  have hdiv : xd.len / nx = (diagTerms no B).length := by
    rw [hd, Nat.mul_div_cancel_left _ hx]
  obtain ⟨g3, hg3, h3⟩ := setTerms_spec xd nx (xd.len / nx) (diag no) B (diagTerms no B)
    (uniqueNonZero_nodup _) 0 g2 fun _ => by rw [hdiv]; exact ⟨hd, by omega⟩
  have e1 : setXU nx no B (fun _ _ _ => 0) xu = .ok g2 := by
    unfold setXU triuTermIdxs
    rw [hg1]
    rfl
  have e2 : gFromX nx no B xd xu = .ok g3 := by
    unfold gFromX
    rw [e1]
    exact hg3
  have hz : ∀ x a b, (a, b) ∉ triu no → g1 x a b = 0 := by
    intro x a b hab
    have := h1 x (a, b)
    simp only at this
    rw [this, if_neg (by tauto)]
  have hup : ∀ x u, u ∈ triu no → g3 x u.1 u.2 = g1 x u.1 u.2 ∧
      g3 x u.2 u.1 = (starRingEnd ℂ) (g1 x u.1 u.2) := by
    intro x u hm
    have h' := (mem_triu no u).1 hm
    have n1 : u ∉ diag no := fun h => by have := (mem_diag no _).1 h; omega
    have n2 : (u.2, u.1) ∉ diag no := fun h => by
      have := (mem_diag no _).1 h; simp only at this; omega
    have n3 : (u.2, u.1) ∉ triu no := fun h => by
      have := (mem_triu no _).1 h; simp only at this; omega
    refine ⟨?_, ?_⟩
    · rw [h3 x u, if_neg (by tauto)]
      simp only [hg2]
      rw [hz x u.2 u.1 n3, map_zero, add_zero]
    · have := h3 x (u.2, u.1)
      simp only at this
      rw [this, if_neg (by tauto)]
      simp only [hg2]
      rw [hz x u.2 u.1 n3, zero_add]
  refine ⟨g3, e2, ?_, ?_, ?_⟩
  · intro x i hi
    have := h3 x (i, i)
    simp only at this
    have hm : (i, i) ∈ diag no := (mem_diag no _).2 ⟨hi, rfl⟩
    rw [this, hdiv]
    have hn : (i, i) ∉ triu no := fun h => by have := (mem_triu no _).1 h; simp at this
    by_cases hb : B i i ∈ diagTerms no B
    · rw [if_pos ⟨hm, hb⟩, if_pos hb, zero_add]
    · rw [if_neg (by tauto), if_neg hb]
      simp only [hg2]
      rw [hz x i i hn]
      simp
  · intro x u hm
    rw [(hup x u hm).1, h1 x u]
    by_cases hb : B u.1 u.2 ∈ triuTerms no B
    · rw [if_pos ⟨hm, hb⟩, if_pos hb, zero_add]
    · rw [if_neg (by tauto), if_neg hb]
  · intro x u hm
    rw [(hup x u hm).1, (hup x u hm).2]

open BlockSymmetrizer in
theorem triuTerms_length_le (no : ℕ) (B : ℕ → ℕ → ℤ) :
    (triuTerms no B).length ≤ no * (no - 1) / 2 := by
  rw [← length_triu]
  have h1 : (triuTerms no B).Subperm ((triu no).map fun u => B u.1 u.2) := by
    refine List.subperm_of_subset (uniqueNonZero_nodup _) fun t ht => ?_
    exact ((mem_uniqueNonZero _ _).1 ht).1
  simpa using h1.length_le

open BlockSymmetrizer in
/-- C45 (`BlockSymmetrizer`, hermitian and symmetric): whenever the parameters are accepted, the
matrices are hermitian for real diagonal parameters, and elements with the same label are equal. -/
theorem C45_block_hermitian {nx no : ℕ} {B : ℕ → ℕ → ℤ} {xd xu : Vec} (hx : 0 < nx)
    (hd : xd.len = nx * (diagTerms no B).length)
    (hu : triuTerms no B ≠ [] → xu.len = nx * (no * (no - 1) / 2)) (hr : xd.Real) :
    ∃ g, gFromX nx no B xd xu = .ok g ∧ Hermitian nx no g ∧
      (∀ x i j, i < no → j < no → B i i = B j j → g x i i = g x j j) ∧
      (∀ x u v, u ∈ triu no → v ∈ triu no → B u.1 u.2 = B v.1 v.2 → g x u.1 u.2 = g x v.1 v.2) := by
  obtain ⟨g, hg, h1, h2, h3⟩ := block_ok hx hd fun h => ⟨hu h, triuTerms_length_le no B⟩
  refine ⟨g, hg, ?_, ?_, ?_⟩
  · intro x a b hxx ha hb
    rcases lt_trichotomy a b with h | h | h
    · exact h3 x (a, b) ((mem_triu no _).2 ⟨ha, hb, h⟩)
    · subst h
      rw [h1 x a ha]
      split_ifs with hm
      · rw [hr]
        rw [hd]
        have hlt := List.idxOf_lt_length_of_mem hm
        calc x * (diagTerms no B).length + (diagTerms no B).idxOf (B a a)
            < x * (diagTerms no B).length + (diagTerms no B).length := by omega
          _ = (x + 1) * (diagTerms no B).length := by ring
          _ ≤ nx * (diagTerms no B).length := Nat.mul_le_mul_right _ hxx
      · rw [map_zero]
    · have := h3 x (b, a) ((mem_triu no _).2 ⟨hb, ha, h⟩)
      simp only at this
      rw [this, Complex.conj_conj]
  · intro x i j hi hj hB
    rw [h1 x i hi, h1 x j hj, hB]
  · intro x u v hu' hv hB
    rw [h2 x u hu', h2 x v hv, hB]

open BlockSymmetrizer in
/-- C45 (`BlockSymmetrizer`, reading back), partial: the parameters are read back if every element
of the upper triangle has its own label, or none has a label. Missing: the other label patterns,
for which the claim fails (`C45_block_violated`). -/
theorem C45_block_readback_partial {nx no : ℕ} {B : ℕ → ℕ → ℤ} {xd xu : Vec} (hx : 0 < nx)
    (hd : xd.len = nx * (diagTerms no B).length) (hu : xu.len = nx * (triuTerms no B).length)
    (hB : triuTerms no B = [] ∨ (triuTerms no B).length = no * (no - 1) / 2) :
    ∃ g, gFromX nx no B xd xu = .ok g ∧ (getXD nx no B g).Eq xd ∧ (getXU nx no B g).Eq xu := by
  obtain ⟨g, hg, h1, h2, -⟩ := block_ok (xd := xd) (xu := xu) hx hd (by
    intro h
    rcases hB with hB | hB
    · exact absurd hB h
    · rw [hu, hB]; exact ⟨rfl, le_refl _⟩)
  refine ⟨g, hg, ⟨?_, ?_⟩, ⟨?_, ?_⟩⟩
  · rw [hd]; simp [getXD, gather, firsts, diagTermIdxs]
  · intro m hm
    refine gather_get (fun x _ t ht => ?_) m hm
    have hlen : (firsts (diagTermIdxs no B)).length = (diagTerms no B).length := by
      simp [firsts, diagTermIdxs]
    rw [hlen] at ht ⊢
    obtain ⟨k1, k2, k3⟩ := firsts_spec (diag no) B (diagTerms no B) (by
      intro t ht
      obtain ⟨i, hi, rfl⟩ := List.mem_map.1 ((mem_uniqueNonZero _ _).1 ht).1
      exact ⟨(i, i), (mem_diag no _).2 ⟨List.mem_range.1 hi, rfl⟩, rfl⟩) (uniqueNonZero_nodup _) t ht
    simp only [diagTermIdxs] at k1 k2 k3 ⊢
    generalize (firsts ((diagTerms no B).map fun t => (diag no).filter fun u => B u.1 u.2 = t)).getD t
      (0, 0) = u at *
    obtain ⟨hi, he⟩ := (mem_diag no u).1 k1
    rw [← he] at k2 k3 ⊢
    rw [h1 x u.1 hi, if_pos k2, k3]
  · rw [hu]; simp [getXU, gather, firsts, triuTermIdxs]
  · intro m hm
    refine gather_get (fun x _ t ht => ?_) m hm
    have hlen : (firsts (triuTermIdxs no B)).length = (triuTerms no B).length := by
      simp [firsts, triuTermIdxs]
    rw [hlen] at ht ⊢
    obtain ⟨k1, k2, k3⟩ := firsts_spec (triu no) B (triuTerms no B) (by
      intro t ht
      obtain ⟨u, hu, rfl⟩ := List.mem_map.1 ((mem_uniqueNonZero _ _).1 ht).1
      exact ⟨u, hu, rfl⟩) (uniqueNonZero_nodup _) t ht
    simp only [triuTermIdxs] at k1 k2 k3 ⊢
    generalize (firsts ((triuTerms no B).map fun t => (triu no).filter fun u => B u.1 u.2 = t)).getD t
      (0, 0) = u at *
    rcases hB with hB | hB
    · rw [hB] at ht; simp at ht
    · rw [h2 x u k1, if_pos k2, k3, hB]

open BlockSymmetrizer in
/-- C45 is violated by `BlockSymmetrizer`: whenever some but not all elements of the upper triangle
have their own label, writing back the parameters that were read off any array raises an
exception. -/
theorem C45_block_violated {nx no : ℕ} {B : ℕ → ℕ → ℤ} (hx : 0 < nx)
    (h0 : triuTerms no B ≠ []) (hN : (triuTerms no B).length ≠ no * (no - 1) / 2) (g g' : Arr) :
    ∃ m, setXU nx no B g' (getXU nx no B g) = .error m := by
  have hlen : (getXU nx no B g).len ≠ nx * (no * (no - 1) / 2) := by
    simp only [getXU, gather, firsts, triuTermIdxs, List.length_map]
    intro h
    exact hN (Nat.eq_of_mul_eq_mul_left hx h)
  unfold setXU
  cases h : triuTermIdxs no B with
  | nil => simp [triuTermIdxs] at h; exact absurd h h0
  | cons l ls =>
    refine ⟨"cannot reshape array", ?_⟩
    simp only [setTerms, reshape_err hlen]
    rfl

open BlockSymmetrizer in
/-- C45 is violated by the fit with a `BlockSymmetrizer`: with equivalent diagonal elements and a
labelled upper triangle, the starting vector read off any Green's function cannot be turned back
into a Green's function. -/
theorem C45_block_fit_violated {nx no : ℕ} {B : ℕ → ℕ → ℤ} (hx : 0 < nx)
    (h0 : triuTerms no B ≠ []) (hd : (diagTerms no B).length < no) (g : Arr) :
    ∃ m, fitGFromX nx no B (fitXFromG nx no B g) = .error m := by
  have hld : (getXD nx no B g).len = nx * (diagTerms no B).length := by
    simp [getXD, gather, firsts, diagTermIdxs]
  have hlu : (getXU nx no B g).len = nx * (triuTerms no B).length := by
    simp [getXU, gather, firsts, triuTermIdxs]
  have hle := triuTerms_length_le no B
  have hmul : nx * (triuTerms no B).length ≤ nx * (no * (no - 1) / 2) := Nat.mul_le_mul_left _ hle
  have hmul2 : nx * (diagTerms no B).length < nx * no := Nat.mul_lt_mul_of_pos_left hd hx
  have hlpos : 0 < nx * (triuTerms no B).length :=
    Nat.mul_pos hx (List.length_pos_iff.2 h0)
  have hl : (fitXFromG nx no B g).len
      = nx * (diagTerms no B).length + 2 * (nx * (triuTerms no B).length) := by
    simp only [fitXFromG, splitReIm, hld, hlu]; ring
  unfold fitGFromX mergeReIm
  simp only
  split_ifs with he
  · have hne : ((fitXFromG nx no B g).len - min (nx * no) (fitXFromG nx no B g).len) / 2
        ≠ nx * (no * (no - 1) / 2) := by omega
    refine ⟨"cannot reshape array", ?_⟩
    simp only [Bind.bind, Except.bind]
    unfold gFromX setXU
    cases h : triuTermIdxs no B with
    | nil => simp [triuTermIdxs] at h; exact absurd h h0
    | cons l ls =>
      simp only [setTerms]
      rw [reshape_err hne]
      rfl
  · exact ⟨_, rfl⟩

/-- Three orbitals with two equivalent off-diagonal elements: two labels for three positions. -/
example : BlockSymmetrizer.triuTerms 3 (fun i j => if i = j then 1 else if i = 0 then 2 else 3)
    = [2, 3] := by decide

/-- Two equivalent orbitals: one diagonal label and one off-diagonal label, `no (no-1)/2 = 1`. -/
example : BlockSymmetrizer.diagTerms 2 (fun i j => if i = j then 1 else 2) = [1] ∧
    (BlockSymmetrizer.triuTerms 2 (fun i j => if i = j then 1 else 2)).length = 2 * (2 - 1) / 2 := by
  decide

end Verif.FitDlr
