import Verif.Wannier.Model
import Mathlib.Data.List.Nodup
import Mathlib.Data.List.Induction
import Mathlib.Data.List.Perm.Basic
import Mathlib.Tactic.Ring
import Mathlib.Tactic.Linarith

/-!
# C55: the hopping parser
-/

noncomputable section

namespace Verif.Wannier

/-- distinct entries in order of first appearance -/
def firstSeen {α : Type*} [DecidableEq α] : List α → List α
  | [] => []
  | a :: l => a :: (firstSeen l).filter (· ≠ a)

/-- lines of at most fifteen numbers, as Wannier90 writes the degeneracies -/
def chunk15 : List ℤ → List (List ℤ)
  | [] => []
  | a :: l => (a :: l).take 15 :: chunk15 ((a :: l).drop 15)
termination_by l => l.length

/-- Content of a well-formed file: lattice vectors with degeneracies, and rows in which every combination of
lattice vector and orbitals occurs once, the lattice vectors first appearing in the order of the
degeneracies. -/
structure WellFormed (nw : ℕ) (Rs : List R3) (deg : List ℤ) (rows : List Row) : Prop where
  len : deg.length = Rs.length
  order : firstSeen (rows.map Row.r) = Rs
  once : (rows.map fun row => (row.r, row.n, row.m)).Nodup
  range : ∀ row ∈ rows, 1 ≤ row.n ∧ row.n ≤ nw ∧ 1 ≤ row.m ∧ row.m ≤ nw
  count : rows.length = nw ^ 2 * Rs.length

/-- the lines of such a file after the header -/
def render (deg : List ℤ) (rows : List Row) : List Line :=
  (chunk15 deg).map Line.ints ++ rows.map Line.hop

theorem firstSeen_append {α : Type*} [DecidableEq α] (l : List α) (a : α) :
    firstSeen (l ++ [a]) = if a ∈ l then firstSeen l else firstSeen l ++ [a] := by
  induction l with
  | nil => simp [firstSeen]
  | cons b l ih =>
    rw [List.cons_append, firstSeen, firstSeen, ih]
    by_cases hba : a = b
    · subst hba
      rw [if_pos (List.mem_cons_self)]
      split_ifs
      · rfl
      · rw [List.filter_append]; simp
    · by_cases hal : a ∈ l
      · rw [if_pos hal, if_pos (List.mem_cons_of_mem _ hal)]
      · rw [if_neg hal, if_neg (by simp [hba, hal]), List.filter_append]
        simp [hba]

theorem mem_firstSeen {α : Type*} [DecidableEq α] (l : List α) (a : α) : a ∈ firstSeen l ↔ a ∈ l := by
  induction l with
  | nil => rfl
  | cons b l ih =>
    rw [firstSeen, List.mem_cons, List.mem_filter, ih, List.mem_cons]
    by_cases h : a = b <;> simp [h]

theorem firstSeen_nodup {α : Type*} [DecidableEq α] (l : List α) : (firstSeen l).Nodup := by
  induction l with
  | nil => exact List.nodup_nil
  | cons b l ih =>
    rw [firstSeen, List.nodup_cons]
    exact ⟨by simp, ih.filter _⟩

theorem write_keys (d : Dict) (r : R3) (n m : ℕ) (t : ℂ) :
    (d.write r n m t).map Prod.fst = if r ∈ d.map Prod.fst then d.map Prod.fst else d.map Prod.fst ++ [r] := by
  induction d with
  | nil => simp [Dict.write]
  | cons p d ih =>
    obtain ⟨r', M⟩ := p
    simp only [Dict.write]
    split_ifs with h1 h2 h2
    · rfl
    · exfalso; apply h2; simp [h1]
    · rw [List.map_cons, List.map_cons, ih, if_pos]
      simpa [Ne.symm h1, eq_comm, h1] using h2
    · rw [List.map_cons, List.map_cons, ih, if_neg]
      · rfl
      · intro h; exact h2 (List.mem_cons_of_mem _ h)

theorem get_isSome (d : Dict) (r : R3) : (d.get r).isSome ↔ r ∈ d.map Prod.fst := by
  induction d with
  | nil => simp [Dict.get]
  | cons p d ih =>
    obtain ⟨r', M⟩ := p
    simp only [Dict.get, List.map_cons, List.mem_cons]
    split_ifs with h
    · simp [h]
    · rw [ih]; simp [Ne.symm h]

theorem write_get (d : Dict) (r : R3) (n m : ℕ) (t : ℂ) (r2 : R3) :
    (d.write r n m t).get r2 = if r2 = r then
        some (fun i j => if i = n ∧ j = m then t else ((d.get r).getD (fun _ _ => 0)) i j)
      else d.get r2 := by
  induction d with
  | nil =>
    simp only [Dict.write, Dict.get]
    by_cases h : r2 = r
    · simp [h]
    · rw [if_neg h, if_neg (Ne.symm h)]
  | cons p d ih =>
    obtain ⟨r', M⟩ := p
    simp only [Dict.write]
    by_cases h1 : r' = r
    · rw [if_pos h1]
      subst h1
      by_cases h2 : r2 = r'
      · subst h2; simp [Dict.get]
      · rw [if_neg h2]
        simp only [Dict.get, if_neg (Ne.symm h2)]
    · rw [if_neg h1]
      by_cases h2 : r' = r2
      · subst h2
        simp only [Dict.get, if_true, if_neg h1]
      · simp only [Dict.get, if_neg h2, if_neg h1, ih]

theorem divide_keys (d : Dict) (w : List ℤ) : (divide d w).map Prod.fst = d.map Prod.fst := by
  induction d generalizing w with
  | nil => cases w <;> rfl
  | cons p d ih =>
    obtain ⟨r, M⟩ := p
    cases w with
    | nil => rfl
    | cons x xs => simp [divide, ih]

theorem divide_get (d : Dict) (w : List ℤ) (hlen : w.length = d.length) (r : R3) (M : Mat)
    (hM : d.get r = some M) (x : ℤ) (hx : w[(d.map Prod.fst).idxOf r]? = some x) :
    (divide d w).get r = some (fun i j => M i j / x) := by
  induction d generalizing w with
  | nil => simp [Dict.get] at hM
  | cons p d ih =>
    obtain ⟨r', M'⟩ := p
    cases w with
    | nil => simp at hlen
    | cons y ys =>
      simp only [divide, Dict.get] at hM ⊢
      by_cases h : r' = r
      · rw [if_pos h] at hM ⊢
        simp [h] at hx
        simp only [Option.some.injEq] at hM
        rw [hM, hx]
      · rw [if_neg h] at hM ⊢
        apply ih ys (by simpa using hlen) hM
        rw [List.map_cons, List.idxOf_cons_ne _ h] at hx
        simpa using hx

theorem pyIndex_inside (nw : ℕ) (n : ℤ) (h1 : 1 ≤ n) (h2 : n ≤ nw) : pyIndex nw (n - 1) = some (n - 1).toNat := by
  rw [pyIndex, if_pos (by omega)]

/-- the loop over rows -/
theorem loop (nw : ℕ) (rows : List Row) (hr : ∀ row ∈ rows, 1 ≤ row.n ∧ row.n ≤ nw ∧ 1 ≤ row.m ∧ row.m ≤ nw)
    (once : (rows.map fun row => (row.r, row.n, row.m)).Nodup) :
    ∃ d : Dict, rows.foldl (step nw) (some []) = some d ∧ d.map Prod.fst = firstSeen (rows.map Row.r) ∧
      (∀ row ∈ rows, ∃ M, d.get row.r = some M ∧
        M (row.n - 1).toNat (row.m - 1).toNat = row.re + Complex.I * row.im) ∧
      (∀ r M, d.get r = some M → ∀ i j, (¬ ∃ row ∈ rows, row.r = r ∧ (row.n - 1).toNat = i ∧ (row.m - 1).toNat = j) →
        M i j = 0) := by
  induction rows using List.reverseRecOn with
  | nil => exact ⟨[], rfl, rfl, by simp, by simp [Dict.get]⟩
  | append_singleton rows a ih =>
    rw [List.map_append, List.nodup_append] at once
    obtain ⟨o1, _, o3⟩ := once
    obtain ⟨d, h1, h2, h3, h4⟩ := ih (fun row h => hr row (List.mem_append_left _ h)) o1
    have ha := hr a (by simp)
    refine ⟨d.write a.r (a.n - 1).toNat (a.m - 1).toNat (a.re + Complex.I * a.im), ?_, ?_, ?_, ?_⟩
    · rw [List.foldl_append, h1]
      simp only [List.foldl_cons, List.foldl_nil, step, Option.bind_some,
        pyIndex_inside nw a.n ha.1 ha.2.1, pyIndex_inside nw a.m ha.2.2.1 ha.2.2.2]
    · rw [write_keys, h2, List.map_append, List.map_cons, List.map_nil, firstSeen_append]
      simp only [mem_firstSeen]
      split_ifs <;> rfl
    · intro row hrow
      rw [write_get]
      rcases List.mem_append.1 hrow with hrow | hrow
      · obtain ⟨M, hM, hv⟩ := h3 row hrow
        by_cases hrr : row.r = a.r
        · refine ⟨_, if_pos hrr, ?_⟩
          have hne : ¬ ((row.n - 1).toNat = (a.n - 1).toNat ∧ (row.m - 1).toNat = (a.m - 1).toNat) := by
            rintro ⟨e1, e2⟩
            have hrr2 := hr row (List.mem_append_left _ hrow)
            refine o3 (row.r, row.n, row.m) (List.mem_map_of_mem hrow) (a.r, a.n, a.m) (by simp) ?_
            rw [hrr, show row.n = a.n by omega, show row.m = a.m by omega]
          rw [if_neg hne, ← hrr, hM]
          exact hv
        · exact ⟨M, by rw [if_neg hrr, hM], hv⟩
      · have : row = a := by simpa using hrow
        subst this
        exact ⟨_, if_pos rfl, by simp⟩
    · intro r M hM i j hno
      rw [write_get] at hM
      have hno' : ¬ ∃ row ∈ rows, row.r = r ∧ (row.n - 1).toNat = i ∧ (row.m - 1).toNat = j := by
        rintro ⟨row, h, h'⟩
        exact hno ⟨row, List.mem_append_left _ h, h'⟩
      split_ifs at hM with hra
      · simp only [Option.some.injEq] at hM
        rw [← hM]
        have : ¬ (i = (a.n - 1).toNat ∧ j = (a.m - 1).toNat) := by
          rintro ⟨e1, e2⟩
          exact hno ⟨a, by simp, hra.symm, e1.symm, e2.symm⟩
        simp only [if_neg this]
        cases hg : d.get a.r with
        | none => rfl
        | some M' => exact h4 a.r M' hg i j (by rw [← hra]; exact hno')
      · exact h4 r M hM i j hno'

theorem chunk15_flatten (l : List ℤ) : (chunk15 l).flatten = l := by
  induction l using chunk15.induct with
  | case1 => simp [chunk15]
  | case2 a l ih => rw [chunk15, List.flatten_cons, ih, List.take_append_drop]

theorem chunk15_length (l : List ℤ) : (chunk15 l).length = (l.length + 14) / 15 := by
  induction l using chunk15.induct with
  | case1 => simp [chunk15]
  | case2 a l ih =>
    rw [chunk15, List.length_cons, ih, List.length_drop, List.length_cons]
    omega

theorem mapM_ints (L : List (List ℤ)) : (L.map Line.ints).mapM Line.toInts = some L := by
  induction L with
  | nil => rfl
  | cons a L ih => rw [List.map_cons, List.mapM_cons, ih]; rfl

theorem mapM_rows (L : List Row) : (L.map Line.hop).mapM Line.toRow = some L := by
  induction L with
  | nil => rfl
  | cons a L ih => rw [List.map_cons, List.mapM_cons, ih]; rfl

/-- C55: a well-formed file with more than one row is accepted, the keys are the lattice vectors, every amplitude
is found under its lattice vector and orbitals divided by the degeneracy, and nothing else is nonzero. -/
theorem C55_parse_partial (nw : ℕ) (Rs : List R3) (deg : List ℤ) (rows : List Row)
    (wf : WellFormed nw Rs deg rows) (h1 : 1 < rows.length) :
    ∃ d : Dict, parse nw Rs.length (render deg rows) = some d ∧ d.map Prod.fst = Rs ∧
      (∀ row ∈ rows, ∀ x, deg[Rs.idxOf row.r]? = some x → ∃ M, d.get row.r = some M ∧
        M (row.n - 1).toNat (row.m - 1).toNat = (row.re + Complex.I * row.im) / x) ∧
      (∀ r M, d.get r = some M → ∀ i j,
        (¬ ∃ row ∈ rows, row.r = r ∧ (row.n - 1).toNat = i ∧ (row.m - 1).toNat = j) → M i j = 0) := by
  obtain ⟨d, e1, e2, e3, e4⟩ := loop nw rows wf.range wf.once
  rw [wf.order] at e2
  have hnl : (Rs.length + 14) / 15 = ((chunk15 deg).map Line.ints).length := by
    rw [List.length_map, chunk15_length, wf.len]
  have hdl : deg.length = d.length := by rw [wf.len, ← e2, List.length_map]
  refine ⟨divide d deg, ?_, ?_, ?_, ?_⟩
  · simp only [parse, render]
    rw [hnl, List.take_left, List.drop_left, mapM_ints]
    simp only [Option.bind_some, chunk15_flatten]
    rw [if_neg (by rw [wf.len]; simp), mapM_rows]
    simp only [Option.bind_some]
    have hc := wf.count
    rw [if_neg (by omega), e1]
    rfl
  · rw [divide_keys, e2]
  · intro row hrow x hx
    obtain ⟨M, hM, hv⟩ := e3 row hrow
    refine ⟨_, divide_get d deg hdl row.r M hM x (by rw [e2]; exact hx), ?_⟩
    simp only [hv]
  · intro r M hM i j hno
    have hk : r ∈ d.map Prod.fst := by
      rw [← divide_keys d deg, ← get_isSome, hM]; rfl
    have hs := (get_isSome d r).2 hk
    obtain ⟨M', hM'⟩ := Option.isSome_iff_exists.1 hs
    have hidx : (d.map Prod.fst).idxOf r < deg.length := by
      rw [hdl, ← List.length_map (f := Prod.fst) (as := d)]
      exact List.idxOf_lt_length_of_mem hk
    have := divide_get d deg hdl r M' hM' _ (List.getElem?_eq_getElem hidx)
    rw [this] at hM
    simp only [Option.some.injEq] at hM
    rw [← hM]
    simp only [e4 r M' hM' i j hno, zero_div]

/-- C55: a file with other counts than announced in its header is refused: an accepted file has `nrpts`
degeneracies in its first lines and `num_wann² · nrpts` hopping lines after them. -/
theorem C55_counts (nw nrpts : ℕ) (degLines : List (List ℤ)) (rows : List Row)
    (hl : degLines.length = (nrpts + 14) / 15) (d : Dict)
    (h : parse nw nrpts (degLines.map Line.ints ++ rows.map Line.hop) = some d) :
    degLines.flatten.length = nrpts ∧ rows.length = nw ^ 2 * nrpts := by
  have hlen : (degLines.map Line.ints).length = (nrpts + 14) / 15 := by rw [List.length_map, hl]
  simp only [parse] at h
  rw [← hlen, List.take_left, List.drop_left, mapM_ints] at h
  rw [Option.bind_some] at h
  by_cases h1 : degLines.flatten.length ≠ nrpts
  · rw [if_pos h1] at h; cases h
  · rw [if_neg h1] at h
    rw [mapM_rows, Option.bind_some] at h
    by_cases h2 : rows.length ≤ 1 ∨ rows.length ≠ nw ^ 2 * nrpts
    · rw [if_pos h2] at h; cases h
    · push Not at h1 h2
      exact ⟨h1, h2.2⟩

/-- C55 is violated for the smallest well-formed file (one orbital, one lattice vector): it is refused. -/
theorem C55_single_row_violated (row : Row) (hn : row.n = 1) (hm : row.m = 1) (x : ℤ) :
    WellFormed 1 [row.r] [x] [row] ∧ parse 1 1 (render [x] [row]) = none := by
  constructor
  · exact ⟨rfl, rfl, by simp, by simp [hn, hm], rfl⟩
  · simp [parse, render, chunk15, Line.toInts, Line.toRow]

/-- a well-formed file: two lattice vectors, one orbital, degeneracies 1 and 2 -/
example : WellFormed 1 [(0, 0, 0), (1, 0, 0)] [1, 2] [⟨(0, 0, 0), 1, 1, 5, 0⟩, ⟨(1, 0, 0), 1, 1, 3, 1⟩] :=
  ⟨rfl, rfl, by simp, by simp, rfl⟩

end Verif.Wannier
