import Verif.Parallel.Lemmas
import Mathlib.Data.List.Nodup
import Mathlib.Algebra.Group.Int.Defs

/-!
# C01, C02, C03: distributed and threaded loops
-/

namespace Verif.Parallel

open Finset

/-! ## C01 -/

/-- C01: concatenating the views of ranks `0..n-1` gives the mesh, in order. -/
theorem C01_mpiView_concat {α : Type*} (mesh : List α) (n : ℕ) (hn : 0 < n) :
    (List.range n).flatMap (mpiView mesh n) = mesh := by
  rw [flatMap_mpiView_prefix, chunkStart_last _ _ hn, List.take_length]

/-- C01: every point occurs on exactly one rank (for a mesh without duplicate points). -/
theorem C01_mpiView_exactly_one_rank {α : Type*} (mesh : List α) (hnd : mesh.Nodup) (n : ℕ)
    (hn : 0 < n) (x : α) (hx : x ∈ mesh) :
    ∃ r, r < n ∧ x ∈ mpiView mesh n r ∧ ∀ r' < n, x ∈ mpiView mesh n r' → r' = r := by
  have h := C01_mpiView_concat mesh n hn
  have hx' := hx
  rw [← h, List.mem_flatMap] at hx'
  obtain ⟨r, hr, hxr⟩ := hx'
  refine ⟨r, List.mem_range.1 hr, hxr, ?_⟩
  intro r' hr' hxr'
  rw [← h, List.nodup_flatMap] at hnd
  by_contra hne
  have hp := hnd.2
  rw [List.pairwise_iff_getElem] at hp
  have hlt : r < n := List.mem_range.1 hr
  rcases Nat.lt_or_gt_of_ne hne with hlt' | hlt'
  · have := hp r' r (by simpa using hr') (by simpa using hlt) hlt'
    simp only [List.getElem_range] at this
    exact this hxr' hxr
  · have := hp r r' (by simpa using hlt) (by simpa using hr') hlt'
    simp only [List.getElem_range] at this
    exact this hxr hxr'

/-- C01: the loads of two ranks differ by at most one. -/
theorem C01_mpiView_balanced {α : Type*} (mesh : List α) (n r r' : ℕ) (hr : r < n) (hr' : r' < n) :
    (mpiView mesh n r).length ≤ (mpiView mesh n r').length + 1 := by
  have hn : 0 < n := by omega
  have hle : ∀ q, q < n → chunkStart mesh.length n (q + 1) ≤ mesh.length := by
    intro q hq
    calc chunkStart mesh.length n (q + 1) ≤ chunkStart mesh.length n n :=
          chunkStart_mono _ _ hq
      _ = mesh.length := chunkStart_last _ _ hn
  have hlen : ∀ q, q < n → (mpiView mesh n q).length =
      chunkStart mesh.length n (q + 1) - chunkStart mesh.length n q := by
    intro q hq
    rw [mpiView_eq, List.length_drop, List.length_take, min_eq_left (hle q hq)]
  rw [hlen r hr, hlen r' hr']
  have key : ∀ q, chunkStart mesh.length n (q + 1) - chunkStart mesh.length n q =
      mesh.length / n + (min (q + 1) (mesh.length % n) - min q (mesh.length % n)) := by
    intro q
    unfold chunkStart
    rw [Nat.add_mul, Nat.one_mul]
    generalize mesh.length / n = d
    omega
  rw [key, key]
  omega

/-- C01: the copying loop never dereferences the end iterator: it copies the full `size`. -/
theorem C01_mpiView_reads_inside {α : Type*} (mesh : List α) (n r : ℕ) (hr : r < n) :
    (mpiView mesh n r).length =
      (chunkRange mesh.length n r).2 - (chunkRange mesh.length n r).1 := by
  have hn : 0 < n := by omega
  have hle : chunkStart mesh.length n (r + 1) ≤ mesh.length := by
    calc chunkStart mesh.length n (r + 1) ≤ chunkStart mesh.length n n :=
          chunkStart_mono _ _ hr
      _ = mesh.length := chunkStart_last _ _ hn
  rw [mpiView_eq, List.length_drop, List.length_take, min_eq_left hle, chunkRange_eq]

/-- 10 points on 4 ranks, and 2 points on 3 ranks (one rank idle) -/
example : (List.range 4).map (mpiView (List.range 10) 4)
    = [[0, 1, 2], [3, 4, 5], [6, 7], [8, 9]] := by decide
example : (List.range 3).map (mpiView (List.range 2) 3) = [[0], [1], []] := by decide

/-! ## C02 -/

/-- C02 (assigning loops): on any number of ranks, the result at a mesh point is the value computed
for it, elsewhere zero. -/
theorem C02_distributedAssign {P M : Type*} [DecidableEq P] [AddCommMonoid M] (n : ℕ) (hn : 0 < n)
    (mesh : List P) (hnd : mesh.Nodup) (f : P → M) (p : P) :
    distributedAssign n mesh f p = if p ∈ mesh then f p else 0 := by
  unfold distributedAssign allReduce rankAssign
  simp only [rankAssign_apply]
  by_cases hp : p ∈ mesh
  · obtain ⟨r, hr, hpr, huniq⟩ := C01_mpiView_exactly_one_rank mesh hnd n hn p hp
    rw [Finset.sum_eq_single r]
    · simp [hpr, hp]
    · intro b hb hbr
      have : p ∉ mpiView mesh n b := fun h => hbr (huniq b (mem_range.1 hb) h)
      simp [this]
    · intro h; exact absurd (mem_range.2 hr) h
  · rw [if_neg hp]
    apply Finset.sum_eq_zero
    intro r hr
    have : p ∉ mpiView mesh n r := by
      intro h
      apply hp
      rw [← C01_mpiView_concat mesh n hn]
      exact List.mem_flatMap.2 ⟨r, List.mem_range.2 (mem_range.1 hr), h⟩
    simp [this]

/-- C02 (accumulating loops): on any number of ranks the result is the full sum over the mesh. -/
theorem C02_distributedAccumulate {P C M : Type*} [AddCommMonoid M] (n : ℕ) (hn : 0 < n)
    (mesh : List P) (f : P → C → M) (c : C) :
    distributedAccumulate n mesh f c = (mesh.map fun p => f p c).sum := by
  unfold distributedAccumulate allReduce rankAccumulate
  simp only [rankAccumulate_apply, zero_add]
  rw [sum_range_flatMap, C01_mpiView_concat mesh n hn]

/-- C02: both kinds of loops return the same on `n` and on `m` ranks (in particular on one rank). -/
theorem C02_rank_independent {P C M : Type*} [DecidableEq P] [AddCommMonoid M] (n m : ℕ)
    (hn : 0 < n) (hm : 0 < m) (mesh : List P) (hnd : mesh.Nodup) (f : P → M) (g : P → C → M) :
    distributedAssign n mesh f = distributedAssign m mesh f ∧
      distributedAccumulate n mesh g = distributedAccumulate m mesh g := by
  constructor
  · funext p
    rw [C02_distributedAssign n hn mesh hnd, C02_distributedAssign m hm mesh hnd]
  · funext c
    rw [C02_distributedAccumulate n hn, C02_distributedAccumulate m hm]

/-- five points on three ranks -/
example : distributedAssign 3 [0, 1, 2, 3, 4] (fun p : ℕ => (p : ℤ) + 10) 3 = 13 := by decide

/-- The zero-initialisation matters: a routine whose output starts at `init` on every rank returns
`n * init` on points of no rank; this is why the theorem is about zero-initialised outputs. -/
example : allReduce 2 (fun r => (mpiView [0, 1] 2 r).foldl
    (fun out (p : ℕ) => Function.update out p ((p : ℤ) + 10)) (fun _ => (1 : ℤ))) 0 ≠ 10 := by decide

/-! ## C03 -/

variable {T C M : Type*} [DecidableEq T] [DecidableEq C]

/-- `l` is a schedule (interleaving) of the thread programs `prog`: restricted to each thread it is
the program of that thread in program order. -/
def IsSchedule (prog : T → List (Step C M)) (l : List (T × Step C M)) : Prop :=
  ∀ t, (l.filter (fun x => x.1 = t)).map Prod.snd = prog t

/-- no two different threads touch the same cell -/
def DisjointCells (prog : T → List (Step C M)) : Prop :=
  ∀ t u, t ≠ u → ∀ a ∈ prog t, ∀ b ∈ prog u, a.cell ≠ b.cell

section
variable [Add M]

private theorem bring_front (s : State T C M) (a : T × Step C M) (l1 l2 : List (T × Step C M))
    (h : ∀ b ∈ l1, a.1 ≠ b.1 ∧ a.2.cell ≠ b.2.cell) :
    run s (l1 ++ a :: l2) = run s (a :: (l1 ++ l2)) := by
  induction l1 generalizing s with
  | nil => rfl
  | cons b l1 ih =>
    have h1 := ih (exec s b) (fun x hx => h x (List.mem_cons_of_mem _ hx))
    have hb := h b List.mem_cons_self
    calc run s (b :: l1 ++ a :: l2) = run (exec s b) (l1 ++ a :: l2) := rfl
      _ = run (exec s b) (a :: (l1 ++ l2)) := h1
      _ = run (exec (exec s b) a) (l1 ++ l2) := rfl
      _ = run (exec (exec s a) b) (l1 ++ l2) := by rw [exec_comm s a b hb.1 hb.2]
      _ = run s (a :: (b :: l1 ++ l2)) := rfl

/-- C03: if the iterations of different threads touch different cells, any two schedules of the same
loop end in the same memory (and registers). -/
theorem C03_schedule_independent (prog : T → List (Step C M)) (hd : DisjointCells prog)
    (l l' : List (T × Step C M)) (hl : IsSchedule prog l) (hl' : IsSchedule prog l')
    (s : State T C M) : run s l = run s l' := by
  induction l generalizing prog l' s with
  | nil =>
    have : l' = [] := by
      by_contra hne
      obtain ⟨x, xs, rfl⟩ := List.exists_cons_of_ne_nil hne
      have h1 := hl x.1
      have h2 := hl' x.1
      rw [← h1] at h2
      simp at h2
    rw [this]
  | cons a l ih =>
    obtain ⟨t, a⟩ := a
    have h1 := hl t
    have h2 := hl' t
    simp only [List.filter_cons, decide_true, if_true, List.map_cons] at h1
    -- split l' at the first step of thread t
    have hsplit : ∃ l1 l2, l' = l1 ++ (t, a) :: l2 ∧ ∀ b ∈ l1, b.1 ≠ t := by
      clear hl hl' ih
      rw [← h1] at h2
      clear h1
      generalize (List.map Prod.snd (List.filter (fun x => decide (x.1 = t)) l)) = tl at h2
      induction l' with
      | nil => simp at h2
      | cons b l' ihl =>
        by_cases hb : b.1 = t
        · simp only [List.filter_cons, hb, decide_true, if_true, List.map_cons,
            List.cons.injEq] at h2
          refine ⟨[], l', ?_, by simp⟩
          rw [← h2.1]; simp [← hb]
        · simp only [List.filter_cons, hb, decide_false, Bool.false_eq_true, if_false] at h2
          obtain ⟨l1, l2, rfl, h3⟩ := ihl h2
          refine ⟨b :: l1, l2, rfl, ?_⟩
          intro x hx
          rcases List.mem_cons.1 hx with rfl | hx
          · exact hb
          · exact h3 x hx
    obtain ⟨l1, l2, rfl, hl1⟩ := hsplit
    have hmem : ∀ b ∈ l1, b.2 ∈ prog b.1 := by
      intro b hb
      rw [← hl' b.1]
      refine List.mem_map.2 ⟨b, ?_, rfl⟩
      simp [hb]
    have hat : a ∈ prog t := by rw [← h1]; simp
    rw [bring_front s (t, a) l1 l2 (fun b hb => ⟨(hl1 b hb).symm,
      hd t b.1 (hl1 b hb).symm a hat b.2 (hmem b hb)⟩)]
    change run (exec s (t, a)) l = run (exec s (t, a)) (l1 ++ l2)
    refine ih (fun u => (l.filter (fun x => x.1 = u)).map Prod.snd) ?_ (l1 ++ l2)
      (fun u => rfl) ?_ (exec s (t, a))
    · intro u v huv x hx y hy
      refine hd u v huv x ?_ y ?_
      · rw [← hl u]; rw [List.filter_cons]; split <;> simp_all
      · rw [← hl v]; rw [List.filter_cons]; split <;> simp_all
    · intro u
      have e1 := hl u
      have e2 := hl' u
      rw [← e1] at e2
      by_cases htu : t = u
      · subst htu
        have hf : l1.filter (fun x => decide (x.1 = t)) = [] := by
          rw [List.filter_eq_nil_iff]; intro b hb; simpa using hl1 b hb
        simp only [List.filter_append, List.filter_cons, hf, decide_true, if_true, List.nil_append,
          List.map_cons, List.cons.injEq, true_and] at e2
        simpa [List.filter_append, hf] using e2
      · simp only [List.filter_append, List.filter_cons, htu, decide_false, Bool.false_eq_true,
          if_false] at e2
        simpa [List.filter_append] using e2

end

/-- The program of a thread that executes the iterations `its`, iteration `(c, vs)` doing
`out[c] += v` for each `v` in `vs`. -/
def accumProg (its : List (C × List M)) : List (Step C M) :=
  its.flatMap fun it => it.2.flatMap fun v => accumIter it.1 v

private theorem run_accum [AddCommMonoid M] (t : T) (its : List (C × List M)) (s : State T C M)
    (c : C) :
    (run s ((accumProg its).map (Prod.mk t))).mem c
      = s.mem c + (its.map fun it => if it.1 = c then it.2.sum else 0).sum := by
  have inner : ∀ (c' : C) (vs : List M) (s : State T C M),
      (run s ((vs.flatMap fun v => accumIter c' v).map (Prod.mk t))).mem c
        = s.mem c + if c' = c then vs.sum else 0 := by
    intro c' vs
    induction vs with
    | nil => intro s; simp [run]
    | cons v vs ih =>
      intro s
      simp only [List.flatMap_cons, List.map_append, run, List.foldl_append]
      have := ih (List.foldl exec s (List.map (Prod.mk t) (accumIter c' v)))
      simp only [run] at this
      rw [this]
      by_cases hc : c' = c
      · subst hc; simp [accumIter, exec, add_assoc]
      · simp [accumIter, exec, hc, Function.update_of_ne (Ne.symm hc)]
  induction its generalizing s with
  | nil => simp [accumProg, run]
  | cons it its ih =>
    have e : accumProg (it :: its) = (it.2.flatMap fun v => accumIter it.1 v) ++ accumProg its := by
      simp [accumProg]
    rw [e, List.map_append, run, List.foldl_append]
    have h1 := ih (List.foldl exec s (List.map (Prod.mk t)
      (it.2.flatMap fun v => accumIter it.1 v)))
    simp only [run] at h1
    rw [h1]
    have h2 := inner it.1 it.2 s
    simp only [run] at h2
    rw [h2]
    simp [add_assoc]

/-- C03 (value): distribute the iterations of an accumulating loop over finitely many threads
`threads` in any way such that no cell is shared between threads; then under every schedule the
final value of a cell is its initial value plus the sum of everything the loop adds to it. -/
theorem C03_accumulating_loop_value [AddCommMonoid M] (threads : List T) (hth : threads.Nodup)
    (share : T → List (C × List M)) (hout : ∀ t, t ∉ threads → share t = [])
    (hd : ∀ t u, t ≠ u → ∀ i ∈ share t, ∀ j ∈ share u, i.1 ≠ j.1)
    (l : List (T × Step C M)) (hl : IsSchedule (fun t => accumProg (share t)) l)
    (s : State T C M) (c : C) :
    (run s l).mem c = s.mem c
      + ((threads.flatMap share).map fun it => if it.1 = c then it.2.sum else 0).sum := by
  have hcell : ∀ t, ∀ a ∈ accumProg (share t), ∃ i ∈ share t, a.cell = i.1 := by
    intro t a ha
    simp only [accumProg, List.mem_flatMap, accumIter] at ha
    obtain ⟨i, hi, v, hv, ha⟩ := ha
    refine ⟨i, hi, ?_⟩
    rcases List.mem_cons.1 ha with rfl | ha
    · rfl
    · rcases List.mem_singleton.1 ha with rfl; rfl
  have hdis : DisjointCells (fun t => accumProg (share t)) := by
    intro t u htu a ha b hb
    obtain ⟨i, hi, e1⟩ := hcell t a ha
    obtain ⟨j, hj, e2⟩ := hcell u b hb
    rw [e1, e2]
    exact hd t u htu i hi j hj
  let seq : List (T × Step C M) := threads.flatMap fun t => (accumProg (share t)).map (Prod.mk t)
  have hseq : IsSchedule (fun t => accumProg (share t)) seq := by
    intro t
    have gen : ∀ th : List T, th.Nodup →
        ((th.flatMap fun t => (accumProg (share t)).map (Prod.mk t)).filter
          (fun x => decide (x.1 = t))).map Prod.snd = if t ∈ th then accumProg (share t) else [] := by
      intro th
      induction th with
      | nil => simp
      | cons u th ih =>
        intro hnd
        rw [List.nodup_cons] at hnd
        rw [List.flatMap_cons, List.filter_append, List.map_append, ih hnd.2]
        by_cases hut : u = t
        · subst hut
          rw [if_neg hnd.1]
          simp [List.filter_map, Function.comp_def]
        · have : List.filter (fun x => decide (x.1 = t))
              (List.map (Prod.mk u) (accumProg (share u))) = [] := by
            rw [List.filter_eq_nil_iff]
            intro x hx
            obtain ⟨y, _, rfl⟩ := List.mem_map.1 hx
            simpa using hut
          rw [this]
          simp [Ne.symm hut]
    have := gen threads hth
    rw [this]
    by_cases ht : t ∈ threads
    · simp [ht]
    · simp [ht, hout t ht, accumProg]
  rw [C03_schedule_independent _ hdis l seq hl hseq s]
  have gen : ∀ (th : List T) (s : State T C M),
      (run s (th.flatMap fun t => (accumProg (share t)).map (Prod.mk t))).mem c = s.mem c
        + ((th.flatMap share).map fun it => if it.1 = c then it.2.sum else 0).sum := by
    intro th
    induction th with
    | nil => intro s; simp [run]
    | cons t th ih =>
      intro s
      rw [List.flatMap_cons, run, List.foldl_append]
      have h1 := ih (List.foldl exec s (List.map (Prod.mk t) (accumProg (share t))))
      simp only [run] at h1
      rw [h1]
      have h2 := run_accum t (share t) s c
      simp only [run] at h2
      rw [h2]
      simp [add_assoc]
  exact gen threads s

/-- Two threads accumulating into two cells each in an interleaved order. -/
example : (run (T := Bool) (C := ℕ) (M := ℤ) ⟨fun _ => 0, fun _ => 0⟩
    [(true, .load 0), (false, .load 1), (true, .storeAdd 0 5), (false, .storeAdd 1 7),
     (true, .load 0), (false, .load 1), (false, .storeAdd 1 1), (true, .storeAdd 0 2)]).mem 0 = 7 := by
  decide

/-- The hypothesis is needed: two threads accumulating into one shared cell can lose an update. -/
theorem C03_shared_cell_loses_update :
    ∃ l l' : List (Bool × Step ℕ ℤ),
      let prog : Bool → List (Step ℕ ℤ) := fun _ => accumProg [(0, [1])]
      IsSchedule prog l ∧ IsSchedule prog l' ∧
      (run (T := Bool) ⟨fun _ => 0, fun _ => 0⟩ l).mem 0 = 2 ∧
      (run (T := Bool) ⟨fun _ => 0, fun _ => 0⟩ l').mem 0 = 1 := by
  refine ⟨[(true, .load 0), (true, .storeAdd 0 1), (false, .load 0), (false, .storeAdd 0 1)],
    [(true, .load 0), (false, .load 0), (true, .storeAdd 0 1), (false, .storeAdd 0 1)], ?_, ?_, ?_, ?_⟩
  · intro t; cases t <;> rfl
  · intro t; cases t <;> rfl
  · decide
  · decide

end Verif.Parallel
