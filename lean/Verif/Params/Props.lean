import Verif.Params.Model
import Mathlib.Data.List.Lookmap
import Mathlib.Data.List.Nodup
import Mathlib.Data.List.FinRange
import Mathlib.Algebra.BigOperators.Group.List.Basic
import Mathlib.Tactic.Ring
import Mathlib.Tactic.Linarith

/-!
# Properties of parameter collections (C50, C51, C52, C76)
-/

set_option linter.unusedSectionVars false

namespace Verif.Params

variable {V : Type}

/-! ## dictionaries -/

theorem get?_set (d : Dict V) (k : String) (v : V) (k' : String) :
    (d.set k v).get? k' = if k' = k then some v else d.get? k' := by
  unfold Dict.get?
  induction d with
  | nil =>
    by_cases h : k' = k
    · simp [Dict.set, h]
    · simp [Dict.set, h, List.lookup_cons, beq_eq_false_iff_ne.2 h]
  | cons a d ih =>
    obtain ⟨k0, v0⟩ := a
    unfold Dict.set
    by_cases h0 : k0 = k
    · subst h0
      by_cases h : k' = k0
      · simp [h]
      · simp [h, List.lookup_cons, beq_eq_false_iff_ne.2 h]
    · rw [if_neg h0]
      by_cases h : k' = k0
      · subst h
        simp [h0]
      · simp only [List.lookup_cons, beq_eq_false_iff_ne.2 h]
        simpa using ih

theorem keys_set (d : Dict V) (k : String) (v : V) :
    (d.set k v).keys = if k ∈ d.keys then d.keys else d.keys ++ [k] := by
  unfold Dict.keys
  induction d with
  | nil => simp [Dict.set]
  | cons a d ih =>
    obtain ⟨k0, v0⟩ := a
    unfold Dict.set
    by_cases h0 : k0 = k
    · simp [h0]
    · rw [if_neg h0, List.map_cons, ih]
      by_cases h : k ∈ d.map Prod.fst
      · simp only [if_pos h, List.map_cons]
        rw [if_pos (List.mem_cons_of_mem _ h)]
      · simp only [if_neg h, List.map_cons]
        rw [if_neg (by simpa [Ne.symm h0] using h)]
        rfl

/-- a dictionary never has a key twice -/
def Dict.WF (d : Dict V) : Prop := d.keys.Nodup

theorem wf_set (d : Dict V) (hd : d.WF) (k : String) (v : V) : (d.set k v).WF := by
  unfold Dict.WF at *
  rw [keys_set]
  split_ifs with h
  · exact hd
  · rw [List.nodup_append]
    refine ⟨hd, by simp, ?_⟩
    intro a ha b hb
    rw [List.mem_singleton] at hb
    rintro rfl
    exact h (hb ▸ ha)

theorem get?_update (d other : Dict V) (ho : other.WF) (k : String) :
    (d.update other).get? k = (other.get? k).or (d.get? k) := by
  unfold Dict.update
  induction other generalizing d with
  | nil => simp [Dict.get?]
  | cons a other ih =>
    obtain ⟨k0, v0⟩ := a
    unfold Dict.WF Dict.keys at ho
    rw [List.map_cons, List.nodup_cons] at ho
    rw [List.foldl_cons, ih _ ho.2, get?_set]
    unfold Dict.get?
    by_cases h : k = k0
    · subst h
      have : List.lookup k other = none := by
        rw [List.lookup_eq_none_iff]
        intro p hp
        rw [bne_iff_ne]
        intro e
        have hm : p.1 ∈ other.map Prod.fst := List.mem_map_of_mem hp
        rw [← e] at hm
        exact ho.1 hm
      simp [this]
    · simp [List.lookup_cons, beq_eq_false_iff_ne.2 h, h]

theorem wf_update (d other : Dict V) (hd : d.WF) : (d.update other).WF := by
  unfold Dict.update
  induction other generalizing d with
  | nil => exact hd
  | cons a other ih => exact ih _ (wf_set d hd _ _)

theorem set_append_new (d : Dict V) (k : String) (v : V) (h : k ∉ d.keys) :
    d.set k v = d ++ [(k, v)] := by
  induction d with
  | nil => rfl
  | cons a d ih =>
    obtain ⟨k0, v0⟩ := a
    simp only [Dict.keys, List.map_cons, List.mem_cons, not_or] at h
    unfold Dict.set
    rw [if_neg (Ne.symm h.1), ih h.2]
    rfl

theorem update_nil (d other : Dict V) (h : (d ++ other).WF) : d.update other = d ++ other := by
  unfold Dict.update
  induction other generalizing d with
  | nil => simp
  | cons a other ih =>
    obtain ⟨k, v⟩ := a
    have hk : k ∉ d.keys := by
      unfold Dict.WF Dict.keys at h
      rw [List.map_append, List.nodup_append] at h
      intro hmem
      exact h.2.2 k hmem k (by simp) rfl
    rw [List.foldl_cons, set_append_new d k v hk, ih _ (by simpa using h)]
    simp

theorem construct_eq (d : Dict V) (hd : d.WF) (hs : "self" ∉ d.keys) : construct d = .ok d := by
  unfold construct checkKwargs
  rw [if_neg hs, update_nil [] d (by simpa using hd)]
  rfl

theorem alterDict_eq (d kw : Dict V) (hd : d.WF) (hs : "self" ∉ d.keys) (hk : "self" ∉ kw.keys) :
    alterDict d kw = .ok (d.update kw) := by
  unfold alterDict copyDict checkKwargs
  rw [if_neg hk, construct_eq d hd hs]
  rfl

/-! ## C50 -/

/-- C50: `copy` is equal key by key (even in the same order); `alter` replaces exactly the given
keys. Attribute names are distinct, and none is called `self` (see `C50_self`). -/
theorem C50_alter (d kw : Dict V) (hd : d.WF) (hkw : kw.WF) (hs : "self" ∉ d.keys)
    (hk : "self" ∉ kw.keys) :
    copyDict d = .ok d ∧
    ∃ d', alterDict d kw = .ok d' ∧ d'.WF ∧
      (∀ k v, kw.get? k = some v → d'.get? k = some v) ∧
      (∀ k, kw.get? k = none → d'.get? k = d.get? k) := by
  refine ⟨construct_eq d hd hs, d.update kw, alterDict_eq d kw hd hs hk, wf_update d kw hd, ?_, ?_⟩
  · intro k v h
    rw [get?_update d kw hkw, h]
    rfl
  · intro k h
    rw [get?_update d kw hkw, h]
    rfl

/-- C50: in two successive alterations the later one wins. -/
theorem C50_alter_alter (d kw kw' d' d'' : Dict V) (hd : d.WF) (hkw : kw.WF) (hkw' : kw'.WF)
    (hs : "self" ∉ d.keys) (hk : "self" ∉ kw.keys) (hk' : "self" ∉ kw'.keys)
    (h1 : alterDict d kw = .ok d') (h2 : alterDict d' kw' = .ok d'') (k : String) :
    d''.get? k = ((kw'.get? k).or (kw.get? k)).or (d.get? k) := by
  rw [alterDict_eq d kw hd hs hk] at h1
  obtain rfl := Except.ok.inj h1
  have hself : "self" ∉ (d.update kw).keys := by
    have : ∀ (kw d : Dict V), "self" ∉ d.keys → "self" ∉ kw.keys → "self" ∉ (d.update kw).keys := by
      intro kw
      induction kw with
      | nil => intro d h _; exact h
      | cons a kw ih =>
        intro d h h'
        obtain ⟨k, v⟩ := a
        simp only [Dict.keys, List.map_cons, List.mem_cons, not_or] at h'
        refine ih (d.set k v) ?_ h'.2
        rw [keys_set]
        split_ifs
        · exact h
        · simp only [List.mem_append, List.mem_singleton, not_or]
          exact ⟨h, h'.1⟩
    exact this kw d hs hk
  rw [alterDict_eq _ kw' (wf_update d kw hd) hself hk'] at h2
  obtain rfl := Except.ok.inj h2
  rw [get?_update _ kw' hkw', get?_update d kw hkw, Option.or_assoc]

/-- C50: copying or altering a collection with an attribute called `self` raises. -/
theorem C50_self (d kw : Dict V) (hs : "self" ∈ d.keys ∨ "self" ∈ kw.keys) :
    alterDict d kw = .error .typeError := by
  unfold alterDict copyDict construct checkKwargs
  by_cases hk : "self" ∈ kw.keys
  · rw [if_pos hk]; rfl
  · rw [if_neg hk, if_pos (hs.resolve_right hk)]; rfl

/-- the collection whose attributes a command assigns -/
def Cmd.target : Cmd V → Option ℕ
  | .setattr p _ _ => some p
  | .grab p _ _ => some p
  | _ => none

theorem step_getElem? (h : Heap V) (c : Cmd V) (i : ℕ) (hi : i < h.length)
    (hc : c.target ≠ some i) : (step h c).1[i]? = h[i]? ∧ h.length ≤ (step h c).1.length := by
  cases c with
  | new kw =>
    simp only [step]
    cases construct kw with
    | ok d => exact ⟨List.getElem?_append_left hi, by simp⟩
    | error e => exact ⟨rfl, le_rfl⟩
  | copy p =>
    simp only [step]
    cases h[p]? with
    | none => exact ⟨rfl, le_rfl⟩
    | some d =>
      simp only
      cases copyDict d with
      | ok d => exact ⟨List.getElem?_append_left hi, by simp⟩
      | error e => exact ⟨rfl, le_rfl⟩
  | alter p kw =>
    simp only [step]
    cases h[p]? with
    | none => exact ⟨rfl, le_rfl⟩
    | some d =>
      simp only
      cases alterDict d kw with
      | ok d => exact ⟨List.getElem?_append_left hi, by simp⟩
      | error e => exact ⟨rfl, le_rfl⟩
  | setattr p k v =>
    have hp : p ≠ i := fun e => hc (by rw [← e]; rfl)
    simp only [step]
    cases h[p]? with
    | none => exact ⟨rfl, le_rfl⟩
    | some d => exact ⟨List.getElem?_set_ne hp, by simp⟩
  | grab p obj ks =>
    have hp : p ≠ i := fun e => hc (by rw [← e]; rfl)
    simp only [step]
    cases h[p]? with
    | none => exact ⟨rfl, le_rfl⟩
    | some d =>
      cases h[obj]? with
      | none => exact ⟨rfl, le_rfl⟩
      | some src => exact ⟨List.getElem?_set_ne hp, by simp⟩

/-- C50: a collection changes only by assignments to itself: no history of constructions, copies,
alterations (of it or of others) and assignments to other collections changes it. -/
theorem C50_pure (cs : List (Cmd V)) (h : Heap V) (i : ℕ) (hi : i < h.length)
    (hcs : ∀ c ∈ cs, c.target ≠ some i) : (run h cs)[i]? = h[i]? := by
  unfold run
  induction cs generalizing h with
  | nil => rfl
  | cons c cs ih =>
    have h1 := step_getElem? h c i hi (hcs c (by simp))
    rw [List.foldl_cons, ih _ (by omega) (fun c' hc' => hcs c' (by simp [hc'])), h1.1]

theorem wf_grabLoop (src : Dict V) (ks : List String) (d : Dict V) (hd : d.WF) :
    (grabLoop src ks d).1.WF := by
  induction ks generalizing d with
  | nil => exact hd
  | cons k ks ih =>
    simp only [grabLoop]
    cases src.get? k with
    | none => exact hd
    | some v => exact ih _ (wf_set d hd k v)

theorem wf_construct (d : Dict V) (kw : Dict V) (h : construct kw = .ok d) : d.WF := by
  unfold construct checkKwargs at h
  split_ifs at h
  · cases h
  · obtain rfl := Except.ok.inj h
    exact wf_update [] kw (by simp [Dict.WF, Dict.keys])

theorem wf_alter (d' d kw : Dict V) (h : alterDict d kw = .ok d') : d'.WF := by
  unfold alterDict copyDict checkKwargs at h
  split_ifs at h
  · cases h
  · cases hc : construct d with
    | error e => rw [hc] at h; cases h
    | ok p =>
      rw [hc] at h
      obtain rfl := Except.ok.inj h
      exact wf_update p kw (wf_construct p d hc)

/-- C50: every collection reachable by any history has distinct attribute names. -/
theorem C50_wf (cs : List (Cmd V)) : ∀ d ∈ run ([] : Heap V) cs, d.WF := by
  suffices H : ∀ (cs : List (Cmd V)) (h : Heap V), (∀ d ∈ h, d.WF) → ∀ d ∈ run h cs, d.WF from
    H cs [] (by simp)
  intro cs
  induction cs with
  | nil => intro h hh; exact hh
  | cons c cs ih =>
    intro h hh
    refine ih _ ?_
    have happ : ∀ d', d'.WF → ∀ d ∈ h ++ [d'], d.WF := by
      intro d' hd' d hd
      rw [List.mem_append, List.mem_singleton] at hd
      rcases hd with hd | rfl
      · exact hh d hd
      · exact hd'
    cases c with
    | new kw =>
      simp only [step]
      cases hc : construct kw with
      | ok d => exact happ d (wf_construct d kw hc)
      | error e => exact hh
    | copy p =>
      simp only [step]
      cases h[p]? with
      | none => exact hh
      | some d =>
        simp only
        cases hc : copyDict d with
        | ok d' => exact happ d' (wf_construct d' d hc)
        | error e => exact hh
    | alter p kw =>
      simp only [step]
      cases h[p]? with
      | none => exact hh
      | some d =>
        simp only
        cases hc : alterDict d kw with
        | ok d' => exact happ d' (wf_alter d' d kw hc)
        | error e => exact hh
    | setattr p k v =>
      simp only [step]
      cases hp : h[p]? with
      | none => exact hh
      | some d =>
        intro d' hd'
        rcases List.mem_or_eq_of_mem_set hd' with h1 | rfl
        · exact hh d' h1
        · exact wf_set d (hh d (List.mem_of_getElem? hp)) k v
    | grab p obj ks =>
      simp only [step]
      cases hp : h[p]? with
      | none => exact hh
      | some d =>
        cases h[obj]? with
        | none => exact hh
        | some src =>
          intro d' hd'
          rcases List.mem_or_eq_of_mem_set hd' with h1 | rfl
          · exact hh d' h1
          · exact wf_grabLoop src ks d (hh d (List.mem_of_getElem? hp))

/-- an example: `p = PC(beta=10, U=1)`, `q = p.alter(U=2, t=3)` -/
example : run ([] : Heap ℕ) [.new [("beta", 10), ("U", 1)], .alter 0 [("U", 2), ("t", 3)],
    .setattr 1 "U" 7] = [[("beta", 10), ("U", 1)], [("beta", 10), ("U", 7), ("t", 3)]] := by
  decide

/-! ## C51 -/

/-- A multi index into lists of the given lengths. -/
def Valid : List ℕ → List ℕ → Prop
  | [], [] => True
  | n :: ns, i :: is => i < n ∧ Valid ns is
  | _, _ => False

/-- The row-major (C order) position of a multi index. -/
def rowMajor : List ℕ → List ℕ → ℕ
  | _ :: ns, i :: is => i * ns.prod + rowMajor ns is
  | _, _ => 0

theorem product_length {α : Type} (ls : List (List α)) :
    (product ls).length = (ls.map List.length).prod := by
  induction ls with
  | nil => rfl
  | cons l ls ih =>
    unfold product
    rw [List.length_flatMap]
    simp [ih]

theorem flatMap_getElem? {α β : Type} (f : α → List β) (m : ℕ) (hf : ∀ x, (f x).length = m)
    (l : List α) (i j : ℕ) (hj : j < m) :
    (l.flatMap f)[i * m + j]? = (l[i]?).bind fun x => (f x)[j]? := by
  induction l generalizing i with
  | nil => simp
  | cons x l ih =>
    rw [List.flatMap_cons]
    cases i with
    | zero =>
      rw [Nat.zero_mul, Nat.zero_add, List.getElem?_append_left (by rw [hf]; exact hj)]
      simp
    | succ i =>
      rw [List.getElem?_append_right (by rw [hf]; nlinarith), hf]
      have : (i + 1) * m + j - m = i * m + j := by
        rw [Nat.add_mul, Nat.one_mul]; omega
      rw [this, ih]
      simp

/-- pick one element of each list -/
def pick {α : Type} : List (List α) → List ℕ → Option (List α)
  | [], [] => some []
  | l :: ls, i :: is => do
    let x ← l[i]?
    let xs ← pick ls is
    return x :: xs
  | _, _ => none

theorem rowMajor_lt (ns is : List ℕ) (h : Valid ns is) : rowMajor ns is < ns.prod := by
  induction ns generalizing is with
  | nil =>
    cases is with
    | nil => simp [rowMajor]
    | cons i is => exact absurd h (by simp [Valid])
  | cons n ns ih =>
    cases is with
    | nil => exact absurd h (by simp [Valid])
    | cons i is =>
      have h1 := ih is h.2
      have h2 : i + 1 ≤ n := h.1
      have h3 : (i + 1) * ns.prod ≤ n * ns.prod := Nat.mul_le_mul_right _ h2
      simp only [rowMajor, List.prod_cons]
      nlinarith

theorem product_getElem? {α : Type} (ls : List (List α)) (is : List ℕ)
    (h : Valid (ls.map List.length) is) :
    (product ls)[rowMajor (ls.map List.length) is]? = pick ls is := by
  induction ls generalizing is with
  | nil =>
    cases is with
    | nil => rfl
    | cons i is => exact absurd h (by simp [Valid])
  | cons l ls ih =>
    cases is with
    | nil => exact absurd h (by simp [Valid])
    | cons i is =>
      simp only [product, List.map_cons, rowMajor]
      rw [flatMap_getElem? _ ((ls.map List.length).prod) (by intro x; simp [product_length]) l i _
        (rowMajor_lt _ _ h.2)]
      have hi : i < l.length := h.1
      simp only [List.getElem?_map, ih is h.2, pick]
      rw [List.getElem?_eq_getElem hi]
      simp only [Option.bind_some, Option.bind_eq_bind, Option.pure_def]
      cases pick ls is <;> rfl

/-- the keyword arguments of one element of the scan -/
def assignment (kwargs : List (String × List V)) (is : List ℕ) : Option (Dict V) :=
  (pick (kwargs.map Prod.snd) is).map fun vs => (kwargs.map Prod.fst).zip vs

theorem pick_zip (kwargs : List (String × List V)) (is : List ℕ) :
    pick (kwargs.map fun kv => kv.2.map fun v => (kv.1, v)) is = assignment kwargs is := by
  unfold assignment
  induction kwargs generalizing is with
  | nil => cases is <;> rfl
  | cons kv kwargs ih =>
    cases is with
    | nil => rfl
    | cons i is =>
      simp only [List.map_cons, pick, List.getElem?_map, ih]
      cases kv.2[i]? with
      | none => rfl
      | some v =>
        simp only [Option.map_some, Option.bind_eq_bind, Option.bind_some]
        cases pick (kwargs.map Prod.snd) is <;> rfl

theorem mapM_ok {α β : Type} (f : α → β) (g : α → Except Err β) (l : List α)
    (h : ∀ x ∈ l, g x = .ok (f x)) : l.mapM g = .ok (l.map f) := by
  induction l with
  | nil => rfl
  | cons a l ih =>
    rw [List.mapM_cons, h a (by simp), ih fun x hx => h x (by simp [hx])]
    rfl

theorem mem_product {α : Type} (ls : List (List α)) (xs : List α) (h : xs ∈ product ls) :
    List.Forall₂ (fun x l => x ∈ l) xs ls := by
  induction ls generalizing xs with
  | nil =>
    simp only [product, List.mem_singleton] at h
    subst h
    exact List.Forall₂.nil
  | cons l ls ih =>
    simp only [product, List.mem_flatMap, List.mem_map] at h
    obtain ⟨x, hx, ys, hys, rfl⟩ := h
    exact List.Forall₂.cons hx (ih ys hys)

theorem keys_of_mem (kwargs : List (String × List V)) (pv : Dict V)
    (h : List.Forall₂ (fun x l => x ∈ l) pv (kwargs.map fun kv => kv.2.map fun v => (kv.1, v))) :
    pv.keys = kwargs.map Prod.fst := by
  induction kwargs generalizing pv with
  | nil =>
    cases h
    rfl
  | cons kv kwargs ih =>
    cases h with
    | cons h1 h2 =>
      simp only [List.mem_map] at h1
      obtain ⟨v, -, rfl⟩ := h1
      unfold Dict.keys
      rw [List.map_cons, List.map_cons]
      congr 1
      exact ih _ h2

/-- C51: a scan returns one collection for each combination of values, in row-major order; the one
with multi index `(i_1, ..., i_n)` is the template altered by `k_1 = l_1[i_1], ..., k_n = l_n[i_n]`.
Keyword names are distinct, as Python requires, and not `self`. -/
theorem C51_scan (p : Dict V) (kwargs : List (String × List V)) (hp : p.WF) (hs : "self" ∉ p.keys)
    (hkw : (kwargs.map Prod.fst).Nodup) (hk : "self" ∉ kwargs.map Prod.fst) :
    ∃ ps, parameterScan p kwargs = .ok ps ∧
      ps.length = (kwargs.map fun kv => kv.2.length).prod ∧
      ∀ is, Valid (kwargs.map fun kv => kv.2.length) is →
        ∃ asg d, assignment kwargs is = some asg ∧ alterDict p asg = .ok d ∧
          ps[rowMajor (kwargs.map fun kv => kv.2.length) is]? = some d := by
  set values := kwargs.map fun kv => kv.2.map fun v => (kv.1, v) with hv
  have hlen : values.map List.length = kwargs.map fun kv => kv.2.length := by
    rw [hv, List.map_map]
    refine List.map_congr_left fun kv _ => ?_
    simp
  have hself : ∀ pv ∈ product values, Dict.WF pv ∧ "self" ∉ Dict.keys pv := by
    intro pv hpv
    have := keys_of_mem kwargs pv (mem_product _ _ hpv)
    unfold Dict.WF
    rw [this]
    exact ⟨hkw, hk⟩
  have hok : ∀ pv ∈ product values, alterDict p (Dict.update [] pv) = .ok (p.update pv) := by
    intro pv hpv
    rw [update_nil [] pv (by simpa using (hself pv hpv).1)]
    exact alterDict_eq p pv hp hs (hself pv hpv).2
  refine ⟨_, mapM_ok (fun pv => p.update pv) _ _ hok, ?_, ?_⟩
  · rw [List.length_map, product_length, hlen]
  · intro is his
    rw [← hlen] at his ⊢
    have h1 := product_getElem? values is his
    rw [List.getElem?_map, h1]
    have hlt : rowMajor (values.map List.length) is < (product values).length := by
      rw [product_length]
      exact rowMajor_lt _ _ his
    rw [List.getElem?_eq_getElem hlt] at h1
    refine ⟨(product values)[rowMajor (values.map List.length) is],
      p.update (product values)[rowMajor (values.map List.length) is], ?_, ?_, ?_⟩
    · rw [← pick_zip, ← hv, ← h1]
    · have hm := hself _ (List.getElem_mem hlt)
      exact alterDict_eq p _ hp hs hm.2
    · rw [← h1]
      rfl

/-- C51: every combination has its own place: the row-major position is a bijection onto the
positions of the result. -/
theorem C51_positions (ns is js : List ℕ) (hi : Valid ns is) (hj : Valid ns js)
    (h : rowMajor ns is = rowMajor ns js) : is = js := by
  induction ns generalizing is js with
  | nil =>
    cases is with
    | nil =>
      cases js with
      | nil => rfl
      | cons j js => exact absurd hj (by simp [Valid])
    | cons i is => exact absurd hi (by simp [Valid])
  | cons n ns ih =>
    cases is with
    | nil => exact absurd hi (by simp [Valid])
    | cons i is =>
      cases js with
      | nil => exact absurd hj (by simp [Valid])
      | cons j js =>
        simp only [rowMajor] at h
        have h1 := rowMajor_lt ns is hi.2
        have h2 := rowMajor_lt ns js hj.2
        have hpos : 0 < ns.prod := by omega
        have hi' : (rowMajor ns is + ns.prod * i) / ns.prod = i := by
          rw [Nat.add_mul_div_left _ _ hpos, Nat.div_eq_of_lt h1, Nat.zero_add]
        have hj' : (rowMajor ns js + ns.prod * j) / ns.prod = j := by
          rw [Nat.add_mul_div_left _ _ hpos, Nat.div_eq_of_lt h2, Nat.zero_add]
        have he : rowMajor ns is + ns.prod * i = rowMajor ns js + ns.prod * j := by
          rw [Nat.mul_comm, Nat.add_comm, h, Nat.add_comm, Nat.mul_comm]
        obtain rfl : i = j := by rw [← hi', ← hj', he]
        rw [ih is js hi.2 hj.2 (by omega)]

/-- an example: `parameter_scan(p, U=[1, 2], t=[5, 6])` -/
example : parameterScan [("beta", 10), ("U", 0)] [("U", [1, 2]), ("t", [5, 6])]
    = .ok [[("beta", 10), ("U", 1), ("t", 5)], [("beta", 10), ("U", 1), ("t", 6)],
        [("beta", 10), ("U", 2), ("t", 5)], [("beta", 10), ("U", 2), ("t", 6)]] := by
  rfl

/-! ## C52 -/

variable {α : Type}

/-- All collections refer to different, existing lists. -/
def Separate (w : World α) : Prop := w.colls.Nodup ∧ ∀ l ∈ w.colls, l < w.lists.length

/-- C52, one step: in a world in which collections refer to different lists, appending to or
reordering a collection changes no other collection. -/
theorem C52_step (w : World α) (hw : Separate w) (c c' : ℕ) (hc : c ≠ c') (x : α) (idx : List ℕ) :
    (cstep w (.append c x)).contents c' = w.contents c' ∧
    (cstep w (.reorder c idx)).contents c' = w.contents c' := by
  constructor
  · unfold World.contents
    simp only [cstep]
    cases h1 : w.colls[c]? with
    | none => rfl
    | some l =>
      simp only
      cases h2 : w.lists[l]? with
      | none => rfl
      | some xs =>
        simp only
        cases h3 : w.colls[c']? with
        | none => rfl
        | some l' =>
          simp only [Option.bind_some]
          have hl : l ≠ l' := by
            rintro rfl
            obtain ⟨b1, b2⟩ := List.getElem?_eq_some_iff.1 h1
            obtain ⟨b3, b4⟩ := List.getElem?_eq_some_iff.1 h3
            exact hc ((List.Nodup.getElem_inj_iff hw.1).1 (b2.trans b4.symm))
          exact List.getElem?_set_ne hl
  · unfold World.contents
    simp only [cstep]
    cases h1 : w.colls[c]? with
    | none => rfl
    | some l =>
      simp only
      cases h2 : w.lists[l]? with
      | none => rfl
      | some xs =>
        simp only
        cases idx.mapM (fun i => xs[i]?) with
        | none => rfl
        | some ys =>
          simp only
          rw [List.getElem?_set_ne hc]
          cases h3 : w.colls[c']? with
          | none => rfl
          | some l' =>
            simp only [Option.bind_some]
            exact List.getElem?_append_left (hw.2 l' (List.mem_of_getElem? h3))

theorem separate_cstep (w : World α) (hw : Separate w) (cmd : CCmd α)
    (h : ∀ l, (cmd = .newFrom l ∨ cmd = .newDefault ∧ l = 0) → l ∉ w.colls)
    (h0 : 0 < w.lists.length) : Separate (cstep w cmd) ∧ 0 < (cstep w cmd).lists.length := by
  obtain ⟨h1, h2⟩ := hw
  have happ : ∀ l, l ∉ w.colls → l < w.lists.length → Separate { w with colls := w.colls ++ [l] } := by
    intro l hl hlt
    refine ⟨?_, ?_⟩
    · rw [List.nodup_append]
      refine ⟨h1, by simp, ?_⟩
      intro a ha b hb
      rw [List.mem_singleton] at hb
      subst hb
      rintro rfl
      exact hl ha
    · intro a ha
      simp only [List.mem_append, List.mem_singleton] at ha
      rcases ha with ha | rfl
      · exact h2 a ha
      · exact hlt
  cases cmd with
  | newList xs =>
    refine ⟨⟨h1, fun l hl => ?_⟩, by simp [cstep]⟩
    have := h2 l hl
    simp only [cstep, List.length_append, List.length_singleton]
    omega
  | newDefault => exact ⟨happ 0 (h 0 (Or.inr ⟨rfl, rfl⟩)) h0, h0⟩
  | newFrom l =>
    simp only [cstep]
    split_ifs with hl
    · exact ⟨happ l (h l (Or.inl rfl)) hl, h0⟩
    · exact ⟨⟨h1, h2⟩, h0⟩
  | append c x =>
    simp only [cstep]
    cases w.colls[c]? with
    | none => exact ⟨⟨h1, h2⟩, h0⟩
    | some l =>
      simp only
      cases w.lists[l]? with
      | none => exact ⟨⟨h1, h2⟩, h0⟩
      | some xs => exact ⟨⟨h1, by simpa using h2⟩, by simpa using h0⟩
  | reorder c idx =>
    simp only [cstep]
    cases w.colls[c]? with
    | none => exact ⟨⟨h1, h2⟩, h0⟩
    | some l =>
      simp only
      cases w.lists[l]? with
      | none => exact ⟨⟨h1, h2⟩, h0⟩
      | some xs =>
        simp only
        cases idx.mapM (fun i => xs[i]?) with
        | none => exact ⟨⟨h1, h2⟩, h0⟩
        | some ys =>
          refine ⟨⟨?_, ?_⟩, by simp⟩
          · exact List.Nodup.set h1 (fun hm => lt_irrefl _ (h2 _ hm))
          · intro a ha
            simp only [List.length_append, List.length_singleton]
            rcases List.mem_or_eq_of_mem_set ha with ha | rfl
            · have := h2 a ha; omega
            · omega

/-- The lists handed to constructors are pairwise different and never ones a collection already
refers to (a list object made by the user is given to at most one constructor, and the default
constructor is used at most once). -/
def OwnLists (w : World α) : List (CCmd α) → Prop
  | [] => True
  | c :: cs => (∀ l, (c = .newFrom l ∨ c = .newDefault ∧ l = 0) → l ∉ w.colls) ∧
      OwnLists (cstep w c) cs

/-- C52, partial: with its own list for every collection, all collections stay separate through any
history; with `C52_step` no operation on one changes another. The full claim also allows the
default constructor any number of times; there it fails (`C52_violated`). -/
theorem C52_partial (cs : List (CCmd α)) (h : OwnLists (World.init α) cs) :
    Separate (crun (World.init α) cs) := by
  suffices H : ∀ (cs : List (CCmd α)) (w : World α), Separate w → 0 < w.lists.length →
      OwnLists w cs → Separate (crun w cs) from
    H cs _ ⟨by simp [World.init], by simp [World.init]⟩ (by simp [World.init]) h
  intro cs
  induction cs with
  | nil => intro w hw _ _; exact hw
  | cons c cs ih =>
    intro w hw h0 hown
    have := separate_cstep w hw c hown.1 h0
    exact ih _ this.1 this.2 hown.2

/-- C52 is violated: two collections created without arguments share their contents, whatever is
appended. -/
theorem C52_violated (x : α) :
    (crun (World.init α) [.newDefault, .newDefault, .append 0 x]).contents 1 = some [x] ∧
    (crun (World.init α) [.newDefault, .newDefault]).contents 1 = some [] := ⟨rfl, rfl⟩

/-- C52 is violated across time: a collection created without arguments after another one was filled
starts with the contents of that one. -/
theorem C52_stale (xs : List α) :
    (crun (World.init α) (.newDefault :: xs.map (.append 0) ++ [.newDefault])).contents 1
      = some xs := by
  have : ∀ (xs ys : List α), crun ⟨[ys], [0]⟩ (xs.map (.append 0)) = ⟨[ys ++ xs], [0]⟩ := by
    intro xs
    induction xs with
    | nil => intro ys; simp [crun]
    | cons x xs ih =>
      intro ys
      have h := ih (ys ++ [x])
      simp only [List.map_cons, crun, List.foldl_cons] at *
      have e : cstep (⟨[ys], [0]⟩ : World α) (.append 0 x) = ⟨[ys ++ [x]], [0]⟩ := rfl
      rw [e, h, List.append_assoc]
      rfl
  have h := this xs []
  unfold crun at *
  rw [List.cons_append, List.foldl_cons, List.foldl_append]
  change (List.foldl cstep (List.foldl cstep ⟨[[]], [0]⟩ _) _).contents 1 = _
  rw [h]
  rfl

/-- a history with own lists -/
example : OwnLists (World.init ℕ) [.newList [1, 2], .newFrom 1, .newDefault, .append 0 3] ∧
    (crun (World.init ℕ) [.newList [1, 2], .newFrom 1, .newDefault, .append 0 3]).contents 0
      = some [1, 2, 3] := by
  refine ⟨?_, rfl⟩
  simp only [OwnLists, World.init, cstep]
  simp

/-! ## C76: reordering a series -/

theorem mapM_perm (xs ys : List α) (idx : List ℕ) (hidx : idx.Perm (List.range xs.length))
    (h : idx.mapM (fun i => xs[i]?) = some ys) : ys.Perm xs := by
  have h1 : ∀ (idx : List ℕ) (ys : List α), idx.mapM (fun i => xs[i]?) = some ys →
      ys.map some = idx.map fun i => xs[i]? := by
    intro idx
    induction idx with
    | nil =>
      intro ys h
      simp only [List.mapM_nil, Option.pure_def, Option.some.injEq] at h
      subst h
      rfl
    | cons i idx ih =>
      intro ys h
      rw [List.mapM_cons] at h
      cases hx : xs[i]? with
      | none => rw [hx] at h; cases h
      | some x =>
        cases hm : idx.mapM (fun i => xs[i]?) with
        | none => rw [hx, hm] at h; cases h
        | some zs =>
          rw [hx, hm] at h
          obtain rfl := Option.some.inj h
          rw [List.map_cons, List.map_cons, hx, ih zs hm]
  have h2 := h1 idx ys h
  have h3 : (idx.map fun i => xs[i]?).Perm (xs.map some) := by
    refine (hidx.map _).trans (List.Perm.of_eq ?_)
    refine List.ext_getElem? fun i => ?_
    simp only [List.getElem?_map]
    by_cases hi : i < xs.length
    · rw [List.getElem?_eq_getElem (by simpa using hi)]
      simp [List.getElem?_eq_getElem hi]
    · rw [List.getElem?_eq_none (by simpa using hi), List.getElem?_eq_none (by simpa using hi)]
      rfl
  rw [← h2] at h3
  exact (List.map_perm_map_iff (Option.some_injective α)).1 h3

/-- C76: reordering a collection by a permutation of its positions (as returned by an argsort) keeps
exactly its members, in the order of the given positions, and does not modify the list object the
collection was created from. -/
theorem C76_reorder (w : World α) (c l : ℕ) (xs : List α) (idx : List ℕ)
    (hc : w.colls[c]? = some l) (hl : w.lists[l]? = some xs)
    (hidx : idx.Perm (List.range xs.length)) :
    ∃ ys, (cstep w (.reorder c idx)).contents c = some ys ∧ ys.Perm xs ∧
      (∀ j (hj : j < idx.length), ys[j]? = xs[idx[j]]?) ∧
      (cstep w (.reorder c idx)).lists[l]? = some xs := by
  have hex : ∀ idx : List ℕ, (∀ i ∈ idx, i < xs.length) →
      ∃ ys, idx.mapM (fun i => xs[i]?) = some ys ∧
        ∀ j (hj : j < idx.length), ys[j]? = xs[idx[j]]? := by
    intro idx
    induction idx with
    | nil => intro _; exact ⟨[], rfl, by simp⟩
    | cons i idx ih =>
      intro h
      obtain ⟨ys, h1, h2⟩ := ih fun j hj => h j (by simp [hj])
      have hi := h i (by simp)
      refine ⟨xs[i] :: ys, ?_, ?_⟩
      · rw [List.mapM_cons, h1, List.getElem?_eq_getElem hi]
        rfl
      · intro j hj
        cases j with
        | zero => simp
        | succ j => simpa using h2 j (by simpa using hj)
  obtain ⟨ys, h1, h2⟩ := hex idx fun i hi => by simpa using hidx.mem_iff.1 hi
  have hclt : c < w.colls.length := (List.getElem?_eq_some_iff.1 hc).1
  have hllt : l < w.lists.length := (List.getElem?_eq_some_iff.1 hl).1
  have hs : cstep w (.reorder c idx)
      = { lists := w.lists ++ [ys], colls := w.colls.set c w.lists.length } := by
    simp only [cstep, hc, hl, h1]
  refine ⟨ys, ?_, mapM_perm xs ys idx hidx h1, h2, ?_⟩
  · rw [hs]
    unfold World.contents
    simp [hclt]
  · rw [hs]
    simp only
    rw [List.getElem?_append_left hllt, hl]

/-- C76: after `sort_on` the attribute values are in ascending order, for any argsort: a permutation
of the positions along which the values ascend. -/
theorem C76_sorted {V : Type} [LinearOrder V] (objs ys : List (Dict V)) (attr : String)
    (idx : List ℕ) (vals : List V)
    (hvals : getattrFromObjects objs attr = vals.map some)
    (hsort : (idx.map fun i => vals[i]?).Pairwise fun a b => ∀ x ∈ a, ∀ y ∈ b, x ≤ y)
    (hys : ∀ j (hj : j < idx.length), ys[j]? = objs[idx[j]]?) (hlen : ys.length = idx.length) :
    ∃ svals : List V, getattrFromObjects ys attr = svals.map some ∧ svals.Pairwise (· ≤ ·) := by
  have hv : ∀ i : ℕ, vals[i]? = (objs[i]?).bind fun o : Dict V => o.get? attr := by
    intro i
    have := congrArg (fun l => l[i]?) hvals
    simp only [getattrFromObjects, List.getElem?_map] at this
    cases h1 : objs[i]? with
    | none =>
      rw [h1] at this
      cases h2 : vals[i]? with
      | none => rfl
      | some v => rw [h2] at this; cases this
    | some o =>
      rw [h1] at this
      cases h2 : vals[i]? with
      | none => rw [h2] at this; cases this
      | some v =>
        rw [h2] at this
        simp only [Option.map_some, Option.some.injEq] at this
        simp [this]
  have hlv : vals.length = objs.length := by
    have := congrArg List.length hvals
    simpa [getattrFromObjects] using this.symm
  have hget : ∀ o ∈ objs, ∃ v, o.get? attr = some v := by
    intro o ho
    have : o.get? attr ∈ getattrFromObjects objs attr := List.mem_map_of_mem ho
    rw [hvals] at this
    obtain ⟨v, -, hv⟩ := List.mem_map.1 this
    exact ⟨v, hv.symm⟩
  have hys' : ys.map some = idx.map fun i => objs[i]? := by
    refine List.ext_getElem? fun j => ?_
    by_cases hj : j < idx.length
    · rw [List.getElem?_map, List.getElem?_map, List.getElem?_eq_getElem hj]
      have hjy : j < ys.length := hlen ▸ hj
      have := hys j hj
      rw [List.getElem?_eq_getElem hjy] at this ⊢
      simp [← this]
    · rw [List.getElem?_eq_none (by simpa [hlen] using hj),
        List.getElem?_eq_none (by simpa using hj)]
  have key : (getattrFromObjects ys attr) = idx.map fun i => vals[i]? := by
    have : getattrFromObjects ys attr = (ys.map some).map fun o => o.bind fun o : Dict V => o.get? attr := by
      simp [getattrFromObjects]
    rw [this, hys', List.map_map]
    refine List.map_congr_left fun i _ => ?_
    rw [hv i]
    rfl
  have hall : ∀ a ∈ getattrFromObjects ys attr, ∃ v, a = some v := by
    intro a ha
    obtain ⟨o, ho, rfl⟩ := List.mem_map.1 ha
    have : some o ∈ ys.map some := List.mem_map_of_mem ho
    rw [hys'] at this
    obtain ⟨i, -, hi⟩ := List.mem_map.1 this
    exact hget o (List.mem_of_getElem? hi)
  refine ⟨(getattrFromObjects ys attr).filterMap id, ?_, ?_⟩
  · generalize getattrFromObjects ys attr = l at hall
    induction l with
    | nil => rfl
    | cons a l ih =>
      obtain ⟨v, rfl⟩ := hall a (by simp)
      have hf : List.filterMap id (some v :: l) = v :: List.filterMap id l := rfl
      rw [hf, List.map_cons, ← ih fun b hb => hall b (by simp [hb])]
  · rw [key]
    rw [List.pairwise_filterMap]
    refine hsort.imp ?_
    intro a b hab x hx y hy
    exact hab x hx y hy

end Verif.Params
