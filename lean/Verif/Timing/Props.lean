import Verif.Timing.Model
import Mathlib.Algebra.BigOperators.Fin
import Mathlib.Algebra.BigOperators.Ring.Finset
import Mathlib.Data.List.Induction
import Mathlib.Tactic.Ring
import Mathlib.Tactic.NormNum
import Mathlib.Tactic.Linarith

/-!
# Properties of the timer (C53, C54, C73)
-/

set_option linter.unusedSectionVars false

noncomputable section

namespace Verif.Timing

open Finset

/-! ## Invariant -/

/-- What holds in every reachable state: keys are distinct and non empty, unknown paths carry no
time, with a path its parent is known, and the running timers are known. -/
structure WF (s : Timer) : Prop where
  nodup : s.keys.Nodup
  nonempty : ∀ p ∈ s.keys, p ≠ []
  zero : ∀ p, p ∉ s.keys → s.val p = 0
  closed : ∀ p ∈ s.keys, p.dropLast = [] ∨ p.dropLast ∈ s.keys
  run : ∀ q, q ≠ [] → q <+: s.running → q ∈ s.keys

theorem WF.init (now : ℝ) (pl : ℕ) : WF (Timer.init now pl) where
  nodup := by simp [Timer.init]
  nonempty := by simp [Timer.init]
  zero := by simp [Timer.init]
  closed := by simp [Timer.init]
  run := by
    intro q hq h
    exact absurd (List.prefix_nil.1 h) hq

theorem get_eq (s : Timer) (hs : WF s) (p : Path) : s.get p = s.val p := by
  unfold Timer.get
  split_ifs with h
  · rfl
  · exact (hs.zero p h).symm

theorem prefix_concat {q r : List String} {n : String} (h : q <+: r ++ [n]) :
    q <+: r ∨ q = r ++ [n] := by
  rw [List.prefix_concat_iff] at h
  tauto

theorem start_fields (s : Timer) (hs : WF s) (n : String) (t : ℝ) :
    (s.start n t).running = s.running ++ [n] ∧
    (s.start n t).val = Function.update s.val (s.running ++ [n]) (s.val (s.running ++ [n]) - t) ∧
    (s.start n t).keys
      = (if s.running ++ [n] ∈ s.keys then s.keys else s.keys ++ [s.running ++ [n]]) ∧
    (s.start n t).t0 = s.t0 ∧ (s.start n t).printLevels = s.printLevels := by
  refine ⟨rfl, ?_, rfl, rfl, rfl⟩
  simp only [Timer.start, Timer.put, get_eq s hs]

theorem WF.start {s : Timer} (hs : WF s) (n : String) (t : ℝ) : WF (s.start n t) := by
  obtain ⟨h1, h2, h3, -, -⟩ := start_fields s hs n t
  have hmem : ∀ p, p ∈ (s.start n t).keys ↔ p ∈ s.keys ∨ p = s.running ++ [n] := by
    intro p
    rw [h3]
    split_ifs with h
    · constructor
      · exact Or.inl
      · rintro (h' | rfl)
        · exact h'
        · exact h
    · simp
  refine ⟨?_, ?_, ?_, ?_, ?_⟩
  · rw [h3]
    split_ifs with h
    · exact hs.nodup
    · rw [List.nodup_append]
      refine ⟨hs.nodup, by simp, ?_⟩
      intro a ha b hb
      rw [List.mem_singleton] at hb
      rintro rfl
      exact h (hb ▸ ha)
  · intro p hp
    rcases (hmem p).1 hp with hp | rfl
    · exact hs.nonempty p hp
    · simp
  · intro p hp
    rw [hmem, not_or] at hp
    rw [h2, Function.update_of_ne hp.2, hs.zero p hp.1]
  · intro p hp
    rcases (hmem p).1 hp with hp | rfl
    · exact (hs.closed p hp).imp id fun h => (hmem _).2 (Or.inl h)
    · rw [List.dropLast_concat]
      by_cases h : s.running = []
      · exact Or.inl h
      · exact Or.inr ((hmem _).2 (Or.inl (hs.run _ h (List.prefix_refl _))))
  · intro q hq hqr
    rw [h1] at hqr
    rcases prefix_concat hqr with h | rfl
    · exact (hmem q).2 (Or.inl (hs.run q hq h))
    · exact (hmem _).2 (Or.inr rfl)

/-- the state after stopping the innermost timer -/
def stopped (s : Timer) (t : ℝ) : Timer :=
  { s with
    running := s.running.dropLast
    val := Function.update s.val s.running (s.val s.running + t) }

theorem stop_ok (s : Timer) (hs : WF s) (r : List String) (n : String) (hr : s.running = r ++ [n])
    (name : Option String) (hname : name = none ∨ name = some n) (t : ℝ) :
    s.stop name t = (stopped s t, .ok s.running) := by
  have hmem : s.running ∈ s.keys := hs.run _ (by rw [hr]; simp) (List.prefix_refl _)
  have hn : name.getD n = n := by rcases hname with rfl | rfl <;> rfl
  unfold Timer.stop
  have hl : s.running.getLast? = some n := by rw [hr]; simp
  rw [hl]
  simp only [hn, ne_eq, not_true, if_false, if_pos hmem, stopped, Timer.put]

theorem WF.stopped {s : Timer} (hs : WF s) (t : ℝ) (h : s.running ≠ []) : WF (stopped s t) where
  nodup := hs.nodup
  nonempty := hs.nonempty
  zero := by
    intro p hp
    have hmem : s.running ∈ s.keys := hs.run _ h (List.prefix_refl _)
    have hne : p ≠ s.running := fun e => hp (e ▸ hmem)
    change Function.update s.val s.running _ p = 0
    rw [Function.update_of_ne hne]
    exact hs.zero p hp
  closed := hs.closed
  run := by
    intro q hq hqr
    exact hs.run q hq (hqr.trans (List.dropLast_prefix _))

/-! ## C53: inclusive times -/

/-- a call -/
inductive Event
  | start (name : String) (t : ℝ)
  | stop (name : Option String) (t : ℝ)

/-- a history of calls none of which raises -/
def exec : Timer → List Event → Option Timer
  | s, [] => some s
  | s, .start n t :: es => exec (s.start n t) es
  | s, .stop n t :: es =>
    match s.stop n t with
    | (s', .ok _) => exec s' es
    | (_, .error _) => none

theorem exec_append (s : Timer) (es es' : List Event) :
    exec s (es ++ es') = (exec s es).bind fun s' => exec s' es' := by
  induction es generalizing s with
  | nil => rfl
  | cons e es ih =>
    cases e with
    | start n t => exact ih _
    | stop n t =>
      simp only [List.cons_append, exec]
      rcases s.stop n t with ⟨s', (_ | _)⟩
      · rfl
      · exact ih _

/-- Properly nested histories, with the total length of the intervals of each path (relative to
where the history takes place). -/
inductive Nested : List Event → (Path → ℝ) → Prop
  | nil : Nested [] fun _ => 0
  | seq {es es' f f'} : Nested es f → Nested es' f' → Nested (es ++ es') fun p => f p + f' p
  | span {es f} (name : String) (name' : Option String) (t t' : ℝ)
      (h : name' = none ∨ name' = some name) : Nested es f →
      Nested (.start name t :: es ++ [.stop name' t']) fun p =>
        match p with
        | [] => 0
        | n :: rest => if n = name then (if rest = [] then t' - t else f rest) else 0

theorem Nested.root {es f} (h : Nested es f) : f [] = 0 := by
  induction h with
  | nil => rfl
  | seq _ _ h1 h2 => simp [h1, h2]
  | span => rfl

theorem not_prefix_append (r : List String) (n : String) (rest : List String)
    (h : ∀ rest', rest ≠ n :: rest') : ¬ r ++ [n] <+: r ++ rest := by
  rw [List.prefix_append_right_inj]
  rintro ⟨q, rfl⟩
  exact h q rfl

/-- C53 (inclusive times): every properly nested history is accepted in every state, leaves the
same timers running, and adds to each path the total length of its intervals. -/
theorem C53_inclusive {es : List Event} {f : Path → ℝ} (h : Nested es f) (s : Timer) (hs : WF s) :
    ∃ s', exec s es = some s' ∧ WF s' ∧ s'.running = s.running ∧ s'.t0 = s.t0 ∧
      s'.printLevels = s.printLevels ∧
      (∀ rest, s'.val (s.running ++ rest) = s.val (s.running ++ rest) + f rest) ∧
      ∀ p, ¬ s.running <+: p → s'.val p = s.val p := by
  induction h generalizing s with
  | nil => exact ⟨s, rfl, hs, rfl, rfl, rfl, fun _ => (add_zero _).symm, fun _ _ => rfl⟩
  | @seq es es' f f' _ _ ih ih' =>
    obtain ⟨s1, e1, w1, r1, t1, l1, v1, o1⟩ := ih s hs
    obtain ⟨s2, e2, w2, r2, t2, l2, v2, o2⟩ := ih' s1 w1
    refine ⟨s2, ?_, w2, r2.trans r1, t2.trans t1, l2.trans l1, ?_, ?_⟩
    · rw [exec_append, e1]
      exact e2
    · intro rest
      have := v2 rest
      rw [r1] at this
      rw [this, v1, add_assoc]
    · intro p hp
      rw [o2 p (by rwa [r1]), o1 p hp]
  | @span es f name name' t t' hname hn ih =>
    obtain ⟨hr, hv, -, ht, hl⟩ := start_fields s hs name t
    obtain ⟨s2, e2, w2, r2, t2, l2, v2, o2⟩ := ih (s.start name t) (hs.start name t)
    rw [hr] at r2 v2 o2
    have hst := stop_ok s2 w2 s.running name r2 name' hname t'
    refine ⟨stopped s2 t', ?_, w2.stopped t' (by rw [r2]; simp), ?_, t2.trans ht, l2.trans hl,
      ?_, ?_⟩
    · rw [List.cons_append, exec, exec_append, e2]
      simp only [Option.bind_some, exec, hst]
    · change s2.running.dropLast = _
      rw [r2, List.dropLast_concat]
    · intro rest
      change Function.update s2.val s2.running (s2.val s2.running + t') _ = _
      rw [r2]
      have hself := v2 []
      rw [List.append_nil, hv, Function.update_self, hn.root] at hself
      by_cases h1 : ∃ rest', rest = name :: rest'
      · obtain ⟨rest', rfl⟩ := h1
        simp only [if_true]
        by_cases h2 : rest' = []
        · subst h2
          rw [Function.update_self, hself, if_pos rfl]
          ring
        · have hne : s.running ++ name :: rest' ≠ s.running ++ [name] := by
            simpa using h2
          rw [Function.update_of_ne hne, if_neg h2]
          have := v2 rest'
          rw [hv, List.append_assoc] at this
          change s2.val (s.running ++ name :: rest') = _ at this
          rw [this]
          have e : s.running ++ ([name] ++ rest') = s.running ++ name :: rest' := rfl
          rw [e, Function.update_of_ne hne]
      · have h1' : ∀ rest', rest ≠ name :: rest' := fun r' e => h1 ⟨r', e⟩
        have hne : s.running ++ rest ≠ s.running ++ [name] := by
          intro e
          exact h1' [] (List.append_cancel_left e)
        rw [Function.update_of_ne hne, o2 _ (not_prefix_append _ _ _ h1'), hv,
          Function.update_of_ne hne]
        cases rest with
        | nil => simp
        | cons m rest =>
          have : m ≠ name := fun e => h1' rest (by rw [e])
          simp [this]
    · intro p hp
      have hp' : ¬ s.running ++ [name] <+: p := fun h => hp ((List.prefix_append _ _).trans h)
      change Function.update s2.val s2.running (s2.val s2.running + t') _ = _
      have hne : p ≠ s.running ++ [name] := fun e => hp' (by rw [e])
      rw [r2, Function.update_of_ne hne, o2 p hp', hv, Function.update_of_ne hne]

/-- an example: `a` from 1 to 9 with two runs of `b` inside, of lengths 2 and 1 -/
example : ∃ s', exec (Timer.init 0 10) [.start "a" 1, .start "b" 2, .stop none 4, .start "b" 6,
    .stop (some "b") 7, .stop none 9] = some s' ∧ s'.val ["a"] = 8 ∧ s'.val ["a", "b"] = 3 := by
  have h : Nested ((.start "a" 1 :: ((.start "b" 2 :: [] ++ [.stop none 4]) ++
      (.start "b" 6 :: [] ++ [.stop (some "b") 7]))) ++ [.stop none 9]) _ :=
    .span "a" none 1 9 (Or.inl rfl)
      (.seq (.span "b" none 2 4 (Or.inl rfl) .nil) (.span "b" (some "b") 6 7 (Or.inr rfl) .nil))
  obtain ⟨s', h1, -, -, -, -, h2, -⟩ := C53_inclusive h (Timer.init 0 10) (WF.init 0 10)
  refine ⟨s', h1, ?_, ?_⟩
  · have := h2 ["a"]
    simp only [Timer.init, List.nil_append] at this
    rw [this]
    norm_num
  · have := h2 ["a", "b"]
    simp only [Timer.init, List.nil_append] at this
    rw [this]
    norm_num

/-! ## C53: the report -/

theorem exclusive_fold (pl : ℕ) (val : Path → ℝ) (tot : ℝ) (ps : List Path)
    (hps : ps.Pairwise fun c a => c.dropLast ≠ a) :
    (∀ q, (ps.foldl (exclusiveStep pl) (val, tot)).1 q
      = val q - ((ps.filter fun c => c.dropLast = q ∧ 1 < c.length ∧ c.length ≤ pl).map val).sum) ∧
    (ps.foldl (exclusiveStep pl) (val, tot)).2
      = tot - ((ps.filter fun c => c.length ≤ 1).map val).sum := by
  induction ps using List.reverseRecOn with
  | nil => simp
  | append_singleton ps a ih =>
    rw [List.pairwise_append] at hps
    obtain ⟨h1, -, h3⟩ := hps
    obtain ⟨i1, i2⟩ := ih h1
    have ha : (ps.foldl (exclusiveStep pl) (val, tot)).1 a = val a := by
      rw [i1 a]
      have : ps.filter (fun c => c.dropLast = a ∧ 1 < c.length ∧ c.length ≤ pl) = [] := by
        rw [List.filter_eq_nil_iff]
        intro c hc
        have := h3 c hc a (by simp)
        simp [this]
      rw [this]
      simp
    rw [List.foldl_append]
    simp only [List.foldl_cons, List.foldl_nil, exclusiveStep, ha, List.filter_append,
      List.map_append, List.sum_append]
    by_cases hl : 1 < a.length
    · have hl' : ¬ a.length ≤ 1 := by omega
      rw [if_pos hl]
      by_cases hp : a.length < pl + 1
      · rw [if_pos hp]
        refine ⟨fun q => ?_, ?_⟩
        · by_cases hq : a.dropLast = q
          · subst hq
            have : List.filter (fun c : Path => c.dropLast = a.dropLast ∧ 1 < c.length ∧
                c.length ≤ pl) [a] = [a] := by
              simp [hl]; omega
            dsimp only
            rw [Function.update_self, i1, this]
            simp only [List.map_cons, List.map_nil, List.sum_cons, List.sum_nil]
            ring
          · have : List.filter (fun c : Path => c.dropLast = q ∧ 1 < c.length ∧
                c.length ≤ pl) [a] = [] := by
              simp [hq]
            dsimp only
            rw [Function.update_of_ne (Ne.symm hq), i1, this]
            simp
        · have : List.filter (fun c : Path => c.length ≤ 1) [a] = [] := by simp [hl]
          rw [i2, this]
          simp
      · rw [if_neg hp]
        refine ⟨fun q => ?_, ?_⟩
        · have : List.filter (fun c : Path => c.dropLast = q ∧ 1 < c.length ∧
              c.length ≤ pl) [a] = [] := by
            simp; omega
          rw [i1, this]
          simp
        · have : List.filter (fun c : Path => c.length ≤ 1) [a] = [] := by simp [hl]
          rw [i2, this]
          simp
    · rw [if_neg hl]
      refine ⟨fun q => ?_, ?_⟩
      · have : List.filter (fun c : Path => c.dropLast = q ∧ 1 < c.length ∧
            c.length ≤ pl) [a] = [] := by
          simp; omega
        rw [i1, this]
        simp
      · have : List.filter (fun c : Path => c.length ≤ 1) [a] = [a] := by
          simp; omega
        rw [i2, this]
        simp only [List.map_cons, List.map_nil, List.sum_cons, List.sum_nil]
        ring

theorem dropLast_lt (c : Path) (hc : c ≠ []) : c.dropLast < c := by
  conv_rhs => rw [← List.dropLast_append_getLast hc]
  have := List.Lex.append_left (· < ·) (List.Lex.nil (r := (· < ·)) (a := c.getLast hc) (l := []))
    c.dropLast
  rw [List.append_nil] at this
  exact this

theorem sorted_children (keys : List Path) (hne : ∀ p ∈ keys, p ≠ []) :
    (keys.insertionSort (· ≤ ·)).Pairwise fun c a => c.dropLast ≠ a := by
  have h := List.pairwise_insertionSort (· ≤ ·) keys
  refine h.imp_of_mem ?_
  intro c a hc _ hca e
  have hc' : c ≠ [] := hne c ((List.mem_insertionSort _).1 hc)
  have := dropLast_lt c hc'
  rw [e] at this
  exact absurd hca (not_le.2 this)

theorem sum_filter_list (keys : List Path) (hnd : keys.Nodup) (P : Path → Prop) [DecidablePred P]
    (g : Path → ℝ) :
    ((keys.filter fun c => P c).map g).sum = ∑ c ∈ keys.toFinset with P c, g c := by
  have := List.sum_toFinset g (hnd.filter (fun c => decide (P c)))
  rw [← this, List.toFinset_filter]
  congr 1
  ext c
  simp

/-- exclusive and left over times of the report -/
theorem report_spec (keys : List Path) (val : Path → ℝ) (pl : ℕ) (tot : ℝ) (hnd : keys.Nodup)
    (hne : ∀ p ∈ keys, p ≠ []) :
    let st := (keys.insertionSort (· ≤ ·)).foldl (exclusiveStep pl) (val, tot)
    (∀ q, st.1 q
      = val q - ∑ c ∈ keys.toFinset with c.dropLast = q ∧ 1 < c.length ∧ c.length ≤ pl, val c) ∧
    st.2 = tot - ∑ c ∈ keys.toFinset with c.length ≤ 1, val c := by
  have hperm := List.perm_insertionSort (· ≤ ·) keys
  have hnd' : (keys.insertionSort (· ≤ ·)).Nodup := hperm.nodup_iff.2 hnd
  have hset : (keys.insertionSort (· ≤ ·)).toFinset = keys.toFinset := by
    ext c
    simp [List.mem_insertionSort]
  obtain ⟨h1, h2⟩ := exclusive_fold pl val tot _ (sorted_children keys hne)
  refine ⟨fun q => ?_, ?_⟩
  · rw [h1 q, sum_filter_list _ hnd', hset]
  · rw [h2, sum_filter_list _ hnd', hset]

/-- C53 (report): the printed exclusive times sum up to the total time, for any set of timers none
of which is called `Other` at top level; each printed exclusive time is the inclusive time minus
that of the printed children. -/
theorem C53_report (keys : List Path) (val : Path → ℝ) (pl : ℕ) (tot : ℝ) (hnd : keys.Nodup)
    (hne : ∀ p ∈ keys, p ≠ []) (hcl : ∀ p ∈ keys, p.dropLast = [] ∨ p.dropLast ∈ keys)
    (hpl : 1 ≤ pl) (hother : ["Other"] ∉ keys) :
    ((report keys val pl tot).map Row.excl).sum = tot ∧
    (∀ p ∈ keys, p.length ≤ pl → (⟨p, val p, val p - ∑ c ∈ keys.toFinset with
        c.dropLast = p ∧ 1 < c.length ∧ c.length ≤ pl, val c⟩ : Row) ∈ report keys val pl tot) ∧
    (report keys val pl tot).map Row.names
      = ((keys.insertionSort (· ≤ ·)).filter fun p => p.length ≤ pl) ++ [["Other"]] := by
  obtain ⟨h1, h2⟩ := report_spec keys val pl tot hnd hne
  set sorted := keys.insertionSort (· ≤ ·) with hsorted
  have hperm : sorted.Perm keys := List.perm_insertionSort (· ≤ ·) keys
  have hnd' : sorted.Nodup := hperm.nodup_iff.2 hnd
  have hset : sorted.toFinset = keys.toFinset := by
    ext c
    simp [hperm.mem_iff]
  have hfo : List.filter (fun p : Path => decide (p.length ≤ pl)) [["Other"]] = [["Other"]] := by
    simp [hpl]
  have hne_o : ∀ p ∈ sorted, p ≠ ["Other"] := fun p hp e => hother (e ▸ hperm.mem_iff.1 hp)
  have hrep : report keys val pl tot
      = ((sorted.filter fun p => p.length ≤ pl).map fun p => ⟨p, val p,
          (sorted.foldl (exclusiveStep pl) (val, tot)).1 p⟩)
        ++ [⟨["Other"], (sorted.foldl (exclusiveStep pl) (val, tot)).2,
            (sorted.foldl (exclusiveStep pl) (val, tot)).2⟩] := by
    unfold report
    rw [← hsorted]
    simp only
    rw [List.filter_append, hfo, List.map_append]
    congr 1
    · refine List.map_congr_left fun p hp => ?_
      have := hne_o p (List.mem_filter.1 hp).1
      rw [Function.update_of_ne this, Function.update_of_ne this]
  refine ⟨?_, ?_, ?_⟩
  · rw [hrep, List.map_append, List.map_map, List.sum_append]
    simp only [List.map_cons, List.map_nil, List.sum_cons, List.sum_nil, add_zero]
    rw [h2]
    have e1 : ((sorted.filter fun p => p.length ≤ pl).map (Row.excl ∘ fun p => ⟨p, val p,
        (sorted.foldl (exclusiveStep pl) (val, tot)).1 p⟩)).sum
        = ∑ q ∈ keys.toFinset with q.length ≤ pl, (val q
          - ∑ c ∈ keys.toFinset with c.dropLast = q ∧ 1 < c.length ∧ c.length ≤ pl, val c) := by
      rw [← hset, ← sum_filter_list sorted hnd']
      congr 1
      refine List.map_congr_left fun q _ => ?_
      rw [hset]
      exact h1 q
    rw [e1, Finset.sum_sub_distrib]
    have e2 : ∑ q ∈ keys.toFinset with q.length ≤ pl,
        ∑ c ∈ keys.toFinset with c.dropLast = q ∧ 1 < c.length ∧ c.length ≤ pl, val c
        = ∑ c ∈ keys.toFinset with 1 < c.length ∧ c.length ≤ pl, val c := by
      rw [← Finset.sum_fiberwise_of_maps_to (s := keys.toFinset.filter fun c =>
          1 < c.length ∧ c.length ≤ pl) (t := keys.toFinset.filter fun q => q.length ≤ pl)
          (g := List.dropLast)]
      · refine Finset.sum_congr rfl fun q _ => Finset.sum_congr ?_ fun _ _ => rfl
        ext c
        simp only [Finset.mem_filter, List.mem_toFinset]
        tauto
      · intro c hc
        simp only [Finset.mem_filter, List.mem_toFinset] at hc ⊢
        refine ⟨(hcl c hc.1).resolve_left fun h => ?_, by rw [List.length_dropLast]; omega⟩
        have := congrArg List.length h
        rw [List.length_dropLast, List.length_nil] at this
        omega
    rw [e2]
    have e3 : ∑ q ∈ keys.toFinset with q.length ≤ pl, val q
        = ∑ c ∈ keys.toFinset with 1 < c.length ∧ c.length ≤ pl, val c
          + ∑ c ∈ keys.toFinset with c.length ≤ 1, val c := by
      simp only [Finset.sum_filter]
      rw [← Finset.sum_add_distrib]
      refine Finset.sum_congr rfl fun c _ => ?_
      by_cases a1 : c.length ≤ 1
      · rw [if_pos (by omega), if_neg (by omega), if_pos a1, zero_add]
      · by_cases a2 : c.length ≤ pl
        · rw [if_pos a2, if_pos (by omega), if_neg a1, add_zero]
        · rw [if_neg a2, if_neg (by omega), if_neg a1, add_zero]
    rw [e3]
    ring
  · intro p hp hlen
    rw [hrep, List.mem_append]
    left
    rw [List.mem_map]
    refine ⟨p, ?_, ?_⟩
    · rw [List.mem_filter]
      exact ⟨hperm.mem_iff.2 hp, by simpa using hlen⟩
    · rw [h1 p]
  · rw [hrep, List.map_append, List.map_map]
    congr 1
    exact List.map_id _

/-! ## C53: write and running timers -/

theorem stopAll_spec (r : List String) (s : Timer) (hs : WF s) (hr : s.running = r)
    (clock : ℕ → ℝ) (i : ℕ) :
    let s' := stopAll r.length s clock i
    WF s' ∧ s'.running = [] ∧ s'.keys = s.keys ∧ s'.t0 = s.t0 ∧ s'.printLevels = s.printLevels ∧
      ∀ p, s'.val p
        = s.val p + if p ≠ [] ∧ p <+: r then clock (i + (r.length - p.length)) else 0 := by
  induction r using List.reverseRecOn generalizing s i with
  | nil =>
    refine ⟨hs, hr, rfl, rfl, rfl, fun p => ?_⟩
    have : ¬ (p ≠ [] ∧ p <+: []) := fun h => h.1 (List.prefix_nil.1 h.2)
    rw [if_neg this]
    simp [stopAll]
  | append_singleton r n ih =>
    have hst := stop_ok s hs r n hr none (Or.inl rfl) (clock i)
    have hlen : (r ++ [n]).length = r.length + 1 := by simp
    rw [hlen]
    simp only [stopAll, hst]
    have hr' : (stopped s (clock i)).running = r := by
      change s.running.dropLast = r
      rw [hr, List.dropLast_concat]
    obtain ⟨w, a1, a2, a3, a4, a5⟩ :=
      ih (stopped s (clock i)) (hs.stopped _ (by rw [hr]; simp)) hr' (i + 1)
    refine ⟨w, a1, a2, a3, a4, fun p => ?_⟩
    rw [a5 p]
    change Function.update s.val s.running (s.val s.running + clock i) p + _ = _
    rw [hr]
    by_cases hp : p = r ++ [n]
    · subst hp
      have h1 : ¬ ((r ++ [n]) ≠ [] ∧ r ++ [n] <+: r) := by
        rintro ⟨-, h⟩
        have := h.length_le
        simp at this
      rw [Function.update_self, if_neg h1, if_pos ⟨by simp, List.prefix_refl _⟩]
      simp
    · rw [Function.update_of_ne hp]
      congr 1
      by_cases hp2 : p ≠ [] ∧ p <+: r
      · rw [if_pos hp2, if_pos ⟨hp2.1, hp2.2.trans (List.prefix_append _ _)⟩]
        have := hp2.2.length_le
        congr 1
        omega
      · rw [if_neg hp2, if_neg]
        rintro ⟨h1, h2⟩
        rcases prefix_concat h2 with h | h
        · exact hp2 ⟨h1, h⟩
        · exact hp h

theorem startAll_spec (ns r : List String) (s : Timer) (hs : WF s) (hr : s.running = r)
    (clock : ℕ → ℝ) (i : ℕ) (hk : ∀ q, q ≠ [] → q <+: r ++ ns → q ∈ s.keys) :
    let s' := startAll ns s clock i
    WF s' ∧ s'.running = r ++ ns ∧ s'.keys = s.keys ∧ s'.t0 = s.t0 ∧
      s'.printLevels = s.printLevels ∧
      ∀ p, s'.val p = s.val p - if r.length < p.length ∧ p <+: r ++ ns
        then clock (i + (p.length - r.length - 1)) else 0 := by
  induction ns generalizing r s i with
  | nil =>
    refine ⟨hs, by rw [List.append_nil]; exact hr, rfl, rfl, rfl, fun p => ?_⟩
    have : ¬ (r.length < p.length ∧ p <+: r ++ []) := by
      rintro ⟨h1, h2⟩
      have := h2.length_le
      simp at this
      omega
    rw [if_neg this]
    simp [startAll]
  | cons n ns ih =>
    obtain ⟨f1, f2, f3, f4, f5⟩ := start_fields s hs n (clock i)
    have hmem : s.running ++ [n] ∈ s.keys := by
      rw [hr]
      exact hk _ (by simp) (by simp)
    rw [if_pos hmem] at f3
    have happ : r ++ [n] ++ ns = r ++ n :: ns := by simp
    obtain ⟨w, a1, a2, a3, a4, a5⟩ := ih (r ++ [n]) (s.start n (clock i)) (hs.start _ _)
      (by rw [f1, hr]) (i + 1) (by rw [f3, happ]; exact hk)
    rw [happ] at a1 a5
    refine ⟨w, a1, a2.trans f3, a3.trans f4, a4.trans f5, fun p => ?_⟩
    simp only [startAll]
    rw [a5 p, f2, hr]
    have hlen : (r ++ [n]).length = r.length + 1 := by simp
    rw [hlen]
    by_cases hp : p = r ++ [n]
    · subst hp
      rw [Function.update_self, if_neg (by simp), if_pos ⟨by simp, by simp⟩]
      simp
    · rw [Function.update_of_ne hp]
      congr 1
      by_cases h1 : r.length + 1 < p.length ∧ p <+: r ++ n :: ns
      · rw [if_pos h1, if_pos ⟨by omega, h1.2⟩]
        congr 1
        omega
      · rw [if_neg h1, if_neg]
        rintro ⟨h2, h3⟩
        have hl : p.length = r.length + 1 := by
          by_contra hne
          exact h1 ⟨by omega, h3⟩
        apply hp
        have hq : r ++ [n] <+: r ++ n :: ns := ⟨ns, by simp⟩
        exact (List.prefix_of_prefix_length_le h3 hq (by rw [hl, hlen])).eq_of_length
          (by rw [hl, hlen])

/-- C53 (write): `write` prints a table whose exclusive times sum up to the time since construction
and leaves the same timers running; only the pause between stopping and restarting a running timer
is not counted. -/
theorem C53_write (s : Timer) (hs : WF s) (clock : ℕ → ℝ) (hkeys : s.keys ≠ [])
    (hpl : 1 ≤ s.printLevels) (hother : ["Other"] ∉ s.keys)
    (htot : clock s.running.length ≠ s.t0) :
    ∃ s' tab, s.write clock = (s', .ok (some tab)) ∧ WF s' ∧ s'.running = s.running ∧
      s'.keys = s.keys ∧ tab.total = clock s.running.length - s.t0 ∧
      (tab.rows.map Row.excl).sum = tab.total ∧
      (∀ p ∈ s.keys, p.length ≤ s.printLevels → ∃ row ∈ tab.rows, row.names = p ∧
        row.incl = s.val p + if p <+: s.running then clock (s.running.length - p.length) else 0) ∧
      ∀ p, p ≠ [] → s'.val p = s.val p + if p <+: s.running then
        clock (s.running.length - p.length) - clock (s.running.length + p.length) else 0 := by
  obtain ⟨w1, r1, k1, t1, l1, v1⟩ := stopAll_spec s.running s hs rfl clock 0
  set s1 := stopAll s.running.length s clock 0 with hs1
  obtain ⟨w2, r2, k2, t2, l2, v2⟩ := startAll_spec s.running [] s1 w1 r1 clock
    (s.running.length + 1) (by
      intro q hq hqr
      rw [k1]
      exact hs.run q hq (by simpa using hqr))
  have htot' : clock s.running.length - s1.t0 ≠ 0 := by
    rw [t1]
    exact sub_ne_zero.2 htot
  obtain ⟨p1, p2, p3⟩ := C53_report s1.keys s1.val s1.printLevels
    (clock s.running.length - s1.t0) w1.nodup w1.nonempty w1.closed (by rw [l1]; exact hpl)
    (by rw [k1]; exact hother)
  refine ⟨startAll s.running s1 clock (s.running.length + 1),
    ⟨report s1.keys s1.val s1.printLevels (clock s.running.length - s1.t0),
      clock s.running.length - s1.t0⟩, ?_, w2, by simpa using r2, k2.trans k1, by rw [t1], p1, ?_, ?_⟩
  · unfold Timer.write
    simp only [← hs1]
    rw [if_neg (by rw [k1]; exact hkeys), if_neg htot']
  · intro p hp hlen
    refine ⟨_, p2 p (by rw [k1]; exact hp) (by rw [l1]; exact hlen), rfl, ?_⟩
    simp only
    rw [v1 p]
    congr 1
    have hne := hs.nonempty p hp
    by_cases h : p <+: s.running
    · rw [if_pos ⟨hne, h⟩, if_pos h, zero_add]
    · rw [if_neg (fun h' => h h'.2), if_neg h]
  · intro p hp
    rw [v2 p, v1 p]
    have hpos : 0 < p.length := List.length_pos_iff.2 hp
    by_cases h : p <+: s.running
    · rw [if_pos ⟨hp, h⟩, if_pos ⟨by simpa using hpos, by simpa using h⟩, if_pos h, zero_add]
      have : s.running.length + 1 + (p.length - ([] : List String).length - 1)
          = s.running.length + p.length := by
        simp only [List.length_nil]
        omega
      rw [this]
      ring
    · rw [if_neg (fun h' => h h'.2), if_neg (fun h' => h (by simpa using h'.2)), if_neg h]
      ring

/-- C53: without timers nothing is printed and nothing changes. -/
theorem C53_write_empty (s : Timer) (hs : WF s) (clock : ℕ → ℝ) (hkeys : s.keys = []) :
    s.write clock = (s, .ok none) := by
  have hr : s.running = [] := by
    by_contra h
    have := hs.run _ h (List.prefix_refl _)
    rw [hkeys] at this
    simp at this
  unfold Timer.write
  simp only [hr, List.length_nil, stopAll]
  rw [if_pos hkeys]

/-- C53 is violated for a timer called `Other`: it is printed twice, with the time that is not
covered instead of its own, and the exclusive times do not sum up to the total. -/
theorem C53_other_violated :
    (report [["Other"]] (fun p => if p = ["Other"] then 3 else 0) 10 10).map
        (fun r => (r.names, r.incl, r.excl)) = [(["Other"], 7, 7), (["Other"], 7, 7)] ∧
    ((report [["Other"]] (fun p => if p = ["Other"] then 3 else 0) 10 10).map Row.excl).sum ≠ 10 := by
  have h : report [["Other"]] (fun p => if p = ["Other"] then 3 else 0) 10 10
      = [⟨["Other"], 7, 7⟩, ⟨["Other"], 7, 7⟩] := by
    simp [report, exclusiveStep]
    norm_num
  rw [h]
  refine ⟨by simp, ?_⟩
  norm_num

/-- C53: every history of `start` and accepted `stop` calls keeps the invariant. -/
theorem C53_invariant (es : List Event) (s s' : Timer) (hs : WF s) (h : exec s es = some s') :
    WF s' := by
  induction es generalizing s with
  | nil => exact Option.some.inj h ▸ hs
  | cons e es ih =>
    cases e with
    | start n t => exact ih _ (hs.start n t) h
    | stop n t =>
      simp only [exec] at h
      rcases List.eq_nil_or_concat s.running with hr | ⟨r, top, hr⟩
      · have : s.stop n t = (s, .error .indexError) := by simp [Timer.stop, hr]
        rw [this] at h
        cases h
      · by_cases hn : n = none ∨ n = some top
        · rw [stop_ok s hs r top (by simpa using hr) n hn t] at h
          exact ih _ (hs.stopped t (by rw [hr]; simp)) h
        · have : (s.stop n t).2 = .error .runtimeError := by
            have hl : s.running.getLast? = some top := by rw [hr]; simp
            have hne : n.getD top ≠ top := by
              cases n with
              | none => exact absurd (Or.inl rfl) hn
              | some m =>
                intro e
                exact hn (Or.inr (by rw [← e]; rfl))
            simp [Timer.stop, hl, hne]
          rcases hst : s.stop n t with ⟨s2, res⟩
          rw [hst] at this h
          simp only at this
          subst this
          cases h

theorem put_fields (s : Timer) (p : Path) (x : ℝ) :
    (∀ q, q ∈ (s.put p x).keys ↔ q ∈ s.keys ∨ q = p) ∧ (s.put p x).running = s.running ∧
    (s.put p x).t0 = s.t0 ∧ (s.put p x).printLevels = s.printLevels ∧
    (s.put p x).val = Function.update s.val p x ∧ (s.keys.Nodup → (s.put p x).keys.Nodup) := by
  refine ⟨fun q => ?_, rfl, rfl, rfl, rfl, fun h => ?_⟩
  · show q ∈ (if p ∈ s.keys then s.keys else s.keys ++ [p]) ↔ _
    split_ifs with hp
    · refine ⟨Or.inl, ?_⟩
      rintro (h | rfl)
      exacts [h, hp]
    · simp
  · show (if p ∈ s.keys then s.keys else s.keys ++ [p]).Nodup
    split_ifs with hp
    · exact h
    · rw [List.nodup_append]
      refine ⟨h, List.nodup_singleton _, ?_⟩
      intro a ha b hb e
      rw [List.mem_singleton] at hb
      subst hb
      exact hp (e ▸ ha)

/-- C53: `add` merges the times of another timer: every path then carries the sum of both times, no path
is lost or listed twice, and the clock, the running timers and the other settings stay. -/
theorem C53_add (s other : Timer) (hs : WF s) (ho : WF other) :
    WF (s.add other) ∧ (∀ p, (s.add other).val p = s.val p + other.val p) ∧
    (∀ p, p ∈ (s.add other).keys ↔ p ∈ s.keys ∨ p ∈ other.keys) ∧
    (s.add other).running = s.running ∧ (s.add other).t0 = s.t0 ∧
    (s.add other).printLevels = s.printLevels := by
  have key : ∀ (l : List Path) (s : Timer), l.Nodup → s.keys.Nodup → (∀ p, p ∉ s.keys → s.val p = 0) →
      let s' := l.foldl (fun s names => s.put names (s.get names + other.val names)) s
      s'.keys.Nodup ∧ (∀ p, s'.val p = s.val p + if p ∈ l then other.val p else 0) ∧
      (∀ p, p ∈ s'.keys ↔ p ∈ s.keys ∨ p ∈ l) ∧ s'.running = s.running ∧ s'.t0 = s.t0 ∧
      s'.printLevels = s.printLevels := by
    intro l
    induction l with
    | nil => intro s _ h _; simpa using h
    | cons a l ih =>
      intro s hl hk hz
      obtain ⟨h1, h2, h3, h4, h5, h6⟩ := put_fields s a (s.get a + other.val a)
      have hg : s.get a = s.val a := by
        unfold Timer.get
        split_ifs with h
        · rfl
        · exact (hz a h).symm
      obtain ⟨i1, i2, i3, i4, i5, i6⟩ := ih (s.put a (s.get a + other.val a)) (List.nodup_cons.1 hl).2 (h6 hk)
        (fun p hp => by
          have hp' := mt (h1 p).2 hp
          rw [h5, Function.update_of_ne (fun e => hp' (Or.inr e))]
          exact hz p fun h => hp' (Or.inl h))
      refine ⟨i1, fun p => ?_, fun p => ?_, i4.trans h2, i5.trans h3, i6.trans h4⟩
      · refine (i2 p).trans ?_
        rw [h5]
        by_cases hpa : p = a
        · subst hpa
          rw [Function.update_self, if_neg (List.nodup_cons.1 hl).1, if_pos List.mem_cons_self, hg, add_zero]
        · rw [Function.update_of_ne hpa]
          congr 1
          simp [hpa]
      · refine (i3 p).trans ?_
        rw [h1 p, List.mem_cons, or_assoc]
  obtain ⟨k1, k2, k3, k4, k5, k6⟩ := key other.keys s ho.nodup hs.nodup hs.zero
  have hval : ∀ p, (s.add other).val p = s.val p + other.val p := fun p => by
    refine (k2 p).trans ?_
    split_ifs with h
    · rfl
    · rw [ho.zero p h]
  refine ⟨⟨k1, fun p hp => ?_, fun p hp => ?_, fun p hp => ?_, fun q hq hr => ?_⟩, hval, k3, k4, k5, k6⟩
  · rcases (k3 p).1 hp with h | h
    exacts [hs.nonempty p h, ho.nonempty p h]
  · have hp' := mt (k3 p).2 hp
    rw [hval, hs.zero p fun h => hp' (Or.inl h), ho.zero p fun h => hp' (Or.inr h), add_zero]
  · rcases (k3 p).1 hp with h | h
    · exact (hs.closed p h).imp id fun h' => (k3 _).2 (Or.inl h')
    · exact (ho.closed p h).imp id fun h' => (k3 _).2 (Or.inr h')
  · refine (k3 q).2 (Or.inl (hs.run q hq ?_))
    rw [← k4]
    exact hr

/-- an example: two finished timers with a path in common -/
example : ∃ s o : Timer, WF s ∧ WF o ∧ s.val ["a"] = 2 ∧ o.val ["a"] = 5 ∧ (s.add o).val ["a"] = 7 := by
  let ev : ℝ → List Event := fun t => [.start "a" 0, .stop none t]
  have h : ∀ t : ℝ, ∃ s, WF s ∧ s.val ["a"] = t := by
    intro t
    refine ⟨_, C53_invariant (ev t) (Timer.init 0 10) _ (WF.init _ _) rfl, ?_⟩
    simp [Timer.stop, Timer.start, Timer.init, Timer.put, Timer.get]
  obtain ⟨s, hs, h2⟩ := h 2
  obtain ⟨o, ho, h5⟩ := h 5
  refine ⟨s, o, hs, ho, h2, h5, ?_⟩
  rw [(C53_add s o hs ho).2.1, h2, h5]
  norm_num

/-! ## C54 -/

/-- C54, partial: stopping is refused exactly when no timer is running or the given name is not the
innermost running one; with no timer running the state is unchanged. -/
theorem C54_partial (s : Timer) (hs : WF s) (name : Option String) (t : ℝ) :
    (s.running = [] → s.stop name t = (s, .error .indexError)) ∧
    (∀ r top, s.running = r ++ [top] →
      ((s.stop name t).2 = .error .runtimeError ↔ ∃ n, name = some n ∧ n ≠ top) ∧
      ((name = none ∨ name = some top) → (s.stop name t).2 = .ok s.running ∧
        (s.stop name t).1.running = r)) := by
  refine ⟨fun hr => by simp [Timer.stop, hr], fun r top hr => ⟨?_, ?_⟩⟩
  · have hl : s.running.getLast? = some top := by rw [hr]; simp
    constructor
    · intro h
      cases name with
      | none => rw [stop_ok s hs r top hr none (Or.inl rfl)] at h; cases h
      | some n =>
        refine ⟨n, rfl, ?_⟩
        rintro rfl
        rw [stop_ok s hs r n hr (some n) (Or.inr rfl)] at h
        cases h
    · rintro ⟨n, rfl, hn⟩
      simp [Timer.stop, hl, hn]
  · intro hn
    rw [stop_ok s hs r top hr name hn]
    refine ⟨rfl, ?_⟩
    change s.running.dropLast = r
    rw [hr, List.dropLast_concat]

/-- C54 is violated: whenever stopping is refused for the wrong name, the innermost timer is no
longer running although its time was not recorded: its entry keeps minus the start time. -/
theorem C54_violated (s : Timer) (r : List String) (top n : String) (t : ℝ)
    (hr : s.running = r ++ [top]) (hn : n ≠ top) :
    s.stop (some n) t = ({ s with running := r }, .error .runtimeError) ∧
    (s.stop (some n) t).1 ≠ s := by
  have hl : s.running.getLast? = some top := by rw [hr]; simp
  have h1 : s.stop (some n) t = ({ s with running := r }, .error .runtimeError) := by
    simp [Timer.stop, hn, hr]
  refine ⟨h1, ?_⟩
  rw [h1]
  intro e
  have := congrArg Timer.running e
  simp only at this
  rw [hr] at this
  have := congrArg List.length this
  simp at this

/-- C54, the recorded time after a refused stop: started at 100, the reported time is -100. -/
theorem C54_negative (name n : String) (hn : n ≠ name) (now t : ℝ) :
    (((Timer.init 0 10).start name now).stop (some n) t).1.getTime [name] = .ok (-now) := by
  have h := (C54_violated ((Timer.init 0 10).start name now) [] name n t rfl hn).1
  rw [h]
  simp [Timer.getTime, Timer.start, Timer.put, Timer.get, Timer.init]

/-! ## C73 -/

/-- The method leaves the running timers as it found them (for instance because it does not use the
timer, or uses it properly nested) and keeps the invariant. -/
def Balanced {E R : Type} (m : Method E R) : Prop :=
  ∀ s, WF s → WF (m s).1 ∧ (m s).1.running = s.running

/-- C73, partial: a decorated method that returns leaves the running timers as they were and
returns the same value. -/
theorem C73_partial {E R : Type} (name : String) (m : Method E R) (hm : Balanced m) (t t' : ℝ)
    (s : Timer) (hs : WF s) (r : R) (hret : (m (s.start name t)).2 = .ok r) :
    (decorated name m t t' s).2 = .ok r ∧ (decorated name m t t' s).1.running = s.running := by
  obtain ⟨h1, h2⟩ := hm _ (hs.start name t)
  unfold decorated
  rcases hms : m (s.start name t) with ⟨s1, res⟩
  rw [hms] at h1 h2 hret
  simp only at h1 h2 hret
  subst hret
  have hst := stop_ok s1 h1 s.running name h2 none (Or.inl rfl) t'
  simp only [hst]
  refine ⟨trivial, ?_⟩
  change s1.running.dropLast = s.running
  rw [h2]
  exact List.dropLast_concat

/-- C73 is violated: whenever a decorated (balanced) method raises, its timer keeps running. -/
theorem C73_violated {E R : Type} (name : String) (m : Method E R) (hm : Balanced m) (t t' : ℝ)
    (s : Timer) (hs : WF s) (e : E) (hret : (m (s.start name t)).2 = .error e) :
    (decorated name m t t' s).2 = .error (.inl e) ∧
    (decorated name m t t' s).1.running = s.running ++ [name] := by
  obtain ⟨h1, h2⟩ := hm _ (hs.start name t)
  unfold decorated
  rcases hms : m (s.start name t) with ⟨s1, res⟩
  rw [hms] at h2 hret
  simp only at h2 hret
  subst hret
  exact ⟨rfl, h2⟩

/-- C73: the context manager restores the running timers however the body ends, and passes its
result or exception on. -/
theorem C73_context {E R : Type} (name : String) (m : Method E R) (hm : Balanced m) (t t' : ℝ)
    (s : Timer) (hs : WF s) :
    (withTimer name m t t' s).2 = (m (s.start name t)).2.mapError .inl ∧
    (withTimer name m t t' s).1.running = s.running := by
  obtain ⟨h1, h2⟩ := hm _ (hs.start name t)
  unfold withTimer
  rcases hms : m (s.start name t) with ⟨s1, res⟩
  rw [hms] at h1 h2
  simp only at h1 h2
  have hst := stop_ok s1 h1 s.running name h2 none (Or.inl rfl) t'
  simp only [hst]
  refine ⟨trivial, ?_⟩
  change s1.running.dropLast = s.running
  rw [h2]
  exact List.dropLast_concat

/-- a balanced method that raises -/
example : Balanced (fun s => (s, .error "ValueError") : Method String Unit) :=
  fun _ hs => ⟨hs, rfl⟩

end Verif.Timing
