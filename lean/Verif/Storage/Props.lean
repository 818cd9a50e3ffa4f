import Verif.Storage.Model
import Verif.Params.Props
import Mathlib.Data.List.TakeWhile

/-!
# C108, C109: storing and copying results
-/

namespace Verif.Storage

/-! ## C108: compressed archives -/

section Tar

variable {D : Type}

theorem base_eq (b rest : List Char) (hb : '.' ∉ b) : base (b ++ '.' :: rest) = b := by
  unfold base
  rw [List.takeWhile_append_of_pos]
  · simp
  · intro a ha
    have : a ≠ '.' := fun h => hb (h ▸ ha)
    simpa using this

theorem dot_not_mem_base (f : List Char) : '.' ∉ base f := by
  intro h
  have := List.mem_takeWhile_imp h
  simp at this

theorem tarName_ne_h5Name (f g : List Char) : tarName f ≠ h5Name g := by
  intro h
  have h' := congrArg List.reverse h
  simp [tarName, h5Name] at h'

theorem write_apply (fs : Fs D) (f : List Char) (data : D) (name : List Char) :
    writeTarGz fs f data name =
      if name = h5Name f then none
      else if name = tarName f then some (.tar [(h5Name f, data)]) else fs name := by
  unfold writeTarGz
  by_cases h1 : name = h5Name f
  · simp [h1]
  · by_cases h2 : name = tarName f
    · have h3 : tarName f ≠ h5Name f := tarName_ne_h5Name f f
      simp [h2, h3]
    · simp [h1, h2, Function.update_of_ne]

/-- the names with which the functions are meant to be used: a stem without a dot, followed by `.tar.gz` -/
def Proper (f : List Char) : Prop := ∃ b, '.' ∉ b ∧ f = b ++ ['.', 't', 'a', 'r', '.', 'g', 'z']

theorem proper_iff (f : List Char) : Proper f ↔ f = tarName f := by
  constructor
  · rintro ⟨b, hb, rfl⟩
    unfold tarName
    rw [base_eq b _ hb]
  · intro h
    exact ⟨base f, dot_not_mem_base f, h⟩

/-- **C108 (part).**  What is written under a name `stem.tar.gz`, the stem without a dot, is read back.  (The full
claim, for every name, fails: `C108_dot_violated`.) -/
theorem C108_roundtrip_partial (fs : Fs D) (b : List Char) (hb : '.' ∉ b) (data : D) :
    readTarGz (writeTarGz fs (b ++ ['.', 't', 'a', 'r', '.', 'g', 'z']) data)
      (b ++ ['.', 't', 'a', 'r', '.', 'g', 'z']) = .ok data := by
  have h := (proper_iff _).1 ⟨b, hb, rfl⟩
  unfold readTarGz
  rw [write_apply, if_neg (by intro h'; exact tarName_ne_h5Name _ _ (h.symm.trans h')), if_pos h]

/-- **C108.**  These are exactly the names for which writing and reading under the same name works whatever was on the
disk before. -/
theorem C108_names [Inhabited D] (f : List Char) :
    (∀ (fs : Fs D) (data : D), readTarGz (writeTarGz fs f data) f = .ok data) ↔ Proper f := by
  constructor
  · intro h
    rw [proper_iff]
    by_contra hne
    have := h (fun _ => none) default
    unfold readTarGz at this
    rw [write_apply] at this
    by_cases h1 : f = h5Name f
    · rw [if_pos h1] at this
      exact absurd this (by simp)
    · rw [if_neg h1, if_neg hne] at this
      exact absurd this (by simp)
  · rintro ⟨b, hb, rfl⟩ fs data
    exact C108_roundtrip_partial fs b hb data

/-- **C108.**  Writing under `stem.tar.gz` changes no file except `stem.tar.gz` and `stem.h5`. -/
theorem C108_untouched (fs : Fs D) (b : List Char) (hb : '.' ∉ b) (data : D) (name : List Char)
    (h1 : name ≠ b ++ ['.', 't', 'a', 'r', '.', 'g', 'z']) (h2 : name ≠ b ++ ['.', 'h', '5']) :
    writeTarGz fs (b ++ ['.', 't', 'a', 'r', '.', 'g', 'z']) data name = fs name := by
  have hbase := base_eq b ['t', 'a', 'r', '.', 'g', 'z'] hb
  rw [write_apply, if_neg (by unfold h5Name; rw [hbase]; exact h2), if_neg (by unfold tarName; rw [hbase]; exact h1)]

/-- **C108.**  The temporary HDF5 file is gone afterwards. -/
theorem C108_clean (fs : Fs D) (f : List Char) (data : D) : writeTarGz fs f data (h5Name f) = none := by
  rw [write_apply, if_pos rfl]

/-- **C108.**  Results stored under different stems do not disturb each other. -/
theorem C108_two (fs : Fs D) (b b' : List Char) (hb : '.' ∉ b) (hb' : '.' ∉ b') (hne : b ≠ b') (x y : D) :
    let t := ['.', 't', 'a', 'r', '.', 'g', 'z']
    readTarGz (writeTarGz (writeTarGz fs (b ++ t) x) (b' ++ t) y) (b ++ t) = .ok x := by
  intro t
  have h := C108_untouched (writeTarGz fs (b ++ t) x) b' hb' y (b ++ t)
    (fun h => hne (List.append_cancel_right h))
    (fun h => by
      have := congrArg List.reverse h
      simp [t] at this)
  have h0 := C108_roundtrip_partial fs b hb x
  unfold readTarGz at h0 ⊢
  rw [h]
  exact h0

example : readTarGz (writeTarGz (writeTarGz (fun _ => none) "a.tar.gz".toList (1 : ℕ)) "b.tar.gz".toList 2)
    "a.tar.gz".toList = .ok 1 :=
  C108_two (fun _ => none) ['a'] ['b'] (by decide) (by decide) (by decide) 1 2

/-- **C108 (violated).**  A dot in the stem, as in a parameter value, cuts the name off: after writing under
`U=2.5.tar.gz` there is no such file, the data is in `U=2.tar.gz`, and writing under `U=2.1.tar.gz` replaces it. -/
theorem C108_dot_violated (x y : D) :
    let fs : Fs D := fun _ => none
    let f := "U=2.5.tar.gz".toList
    let g := "U=2.1.tar.gz".toList
    readTarGz (writeTarGz fs f x) f = .error .fileNotFound ∧
      readTarGz (writeTarGz fs f x) "U=2.tar.gz".toList = .ok x ∧
      readTarGz (writeTarGz (writeTarGz fs f x) g y) "U=2.tar.gz".toList = .ok y := by
  refine ⟨?_, ?_, ?_⟩ <;> rfl

/-- **C108 (violated).**  With a relative path that begins with a dot, `./run/x.tar.gz`, the data goes to the file
`.tar.gz` in the working directory. -/
theorem C108_relative_violated (x : D) :
    let fs : Fs D := fun _ => none
    let f := "./run/x.tar.gz".toList
    readTarGz (writeTarGz fs f x) f = .error .fileNotFound ∧
      readTarGz (writeTarGz fs f x) ".tar.gz".toList = .ok x := by
  refine ⟨?_, ?_⟩ <;> rfl

/-- **C108 (violated).**  Whatever the user had in `stem.h5` is replaced and removed. -/
theorem C108_h5_violated (b : List Char) (hb : '.' ∉ b) (mine x : D) :
    ∃ fs : Fs D, fs (b ++ ['.', 'h', '5']) = some (.h5 mine) ∧
      writeTarGz fs (b ++ ['.', 't', 'a', 'r', '.', 'g', 'z']) x (b ++ ['.', 'h', '5']) = none := by
  refine ⟨fun _ => some (.h5 mine), rfl, ?_⟩
  have := C108_clean (D := D) (fun _ => some (.h5 mine)) (b ++ ['.', 't', 'a', 'r', '.', 'g', 'z']) x
  unfold h5Name at this
  rwa [base_eq b _ hb] at this

end Tar

/-! ## C109: parameter collections in archives -/

mutual

/-- values that come back from an archive unchanged, as far as a user can say without looking into the code: no boolean
outside a parameter collection, only strings as keys of dictionaries, no parameter named `items` or like a method -/
def Inert : Val → Prop
  | .bool _ => False
  | .npBool _ => False
  | .num _ => True
  | .str _ => True
  | .list l => InertList l
  | .dict d => InertDict d
  | .pc d => (∀ e ∈ d, e.1 ≠ "_clean_bools" ∧ e.1 ≠ "items" ∧ e.1 ≠ "dict") ∧ InertEntries d
  | .pcs l => InertList l

/-- the entries of a list -/
def InertList : List Val → Prop
  | [] => True
  | v :: l => Inert v ∧ InertList l

/-- the entries of a dictionary -/
def InertDict : List (Key × Val) → Prop
  | [] => True
  | (k, v) :: d => (∃ s, k = .str s) ∧ Inert v ∧ InertDict d

/-- the entries of a parameter collection: booleans are allowed -/
def InertEntries : List (String × Val) → Prop
  | [] => True
  | (_, v) :: d => (Inert v ∨ ∃ b, v = .bool b) ∧ InertEntries d

end

/-- what `loadPc` makes of plain booleans -/
def toNp : Val → Val
  | .bool b => .npBool b
  | v => v

theorem cleanBool_toNp (v : Val) (h : Inert v ∨ ∃ b, v = .bool b) : cleanBool (toNp v) = v := by
  rcases h with h | ⟨b, rfl⟩
  · cases v <;> first | rfl | (simp [Inert] at h)
  · rfl

theorem factory_names (d : List (String × Val))
    (hn : ∀ e ∈ d, e.1 ≠ "_clean_bools" ∧ e.1 ≠ "items" ∧ e.1 ≠ "dict") (he : InertEntries d) :
    factoryPC (d.map fun e => (e.1, toNp e.2)) = .ok (.pc d) := by
  have hk : (d.map fun e => (e.1, toNp e.2)).map Prod.fst = d.map Prod.fst := by
    rw [List.map_map]; rfl
  have hmem : ∀ s, (∀ e ∈ d, e.1 ≠ s) → s ∉ d.map Prod.fst := by
    intro s h hs
    obtain ⟨e, hed, rfl⟩ := List.mem_map.1 hs
    exact h e hed rfl
  unfold factoryPC
  rw [hk, if_neg, if_neg]
  · rw [List.map_map]
    congr 2
    clear hk hmem hn
    induction d with
    | nil => rfl
    | cons e d ih =>
      obtain ⟨k, v⟩ := e
      simp only [InertEntries] at he
      rw [List.map_cons, ih he.2]
      simp only [Function.comp]
      rw [cleanBool_toNp v he.1]
  · rintro ⟨h, -⟩
    exact hmem _ (fun e he => (hn e he).2.2) h
  · rintro (h | h)
    · exact hmem _ (fun e he => (hn e he).1) h
    · exact hmem _ (fun e he => (hn e he).2.1) h

mutual

theorem load_inert (text : Key → String) : ∀ v : Val, Inert v → load text v = .ok v
  | .bool _, h => by simp [Inert] at h
  | .npBool _, h => by simp [Inert] at h
  | .num _, _ => rfl
  | .str _, _ => rfl
  | .list l, h => by
    simp only [Inert] at h
    simp only [load, loadList_inert text l h]; rfl
  | .dict d, h => by
    simp only [Inert] at h
    simp only [load, loadDict_inert text d h]; rfl
  | .pc d, h => by
    simp only [Inert] at h
    simp only [load, loadPc_inert text d h.2]
    exact factory_names d h.1 h.2
  | .pcs l, h => by
    simp only [Inert] at h
    simp only [load, loadList_inert text l h]; rfl

theorem loadList_inert (text : Key → String) : ∀ l : List Val, InertList l → loadList text l = .ok l
  | [], _ => rfl
  | v :: l, h => by
    simp only [InertList] at h
    simp only [loadList, load_inert text v h.1, loadList_inert text l h.2]; rfl

theorem loadDict_inert (text : Key → String) : ∀ d : List (Key × Val), InertDict d → loadDict text d = .ok d
  | [], _ => rfl
  | (k, v) :: d, h => by
    simp only [InertDict] at h
    obtain ⟨s, hs⟩ := h.1
    simp only [loadDict, load_inert text v h.2.1, loadDict_inert text d h.2.2, hs]; rfl

theorem loadPc_inert (text : Key → String) : ∀ d : List (String × Val), InertEntries d →
    loadPc text d = .ok (d.map fun e => (e.1, toNp e.2))
  | [], _ => rfl
  | (k, v) :: d, h => by
    simp only [InertEntries] at h
    have hv : load text v = .ok (toNp v) := by
      rcases h.1 with hi | ⟨b, hb⟩
      · rw [load_inert text v hi]
        cases v <;> first | rfl | (simp [Inert] at hi)
      · rw [hb]; rfl
    simp only [loadPc, hv, loadPc_inert text d h.2]; rfl

end

/-- **C109 (part).**  A parameter collection is read back from an archive as it was written, with nested collections,
lists and dictionaries, provided booleans stand directly in collections, the keys of dictionaries are strings, and no
parameter has the name of a method used in loading.  (Without these conditions the claim fails: `C109_nested_violated`,
`C109_items_violated`, `C109_keys_violated`.) -/
theorem C109_archive_partial (text : Key → String) (d : List (String × Val))
    (hn : ∀ e ∈ d, e.1 ≠ "_clean_bools" ∧ e.1 ≠ "items" ∧ e.1 ≠ "dict") (he : InertEntries d) :
    load text (.pc d) = .ok (.pc d) :=
  load_inert text (.pc d) (by simp only [Inert]; exact ⟨hn, he⟩)

example (text : Key → String) :
    let d : List (String × Val) := [("spin", .bool true), ("U", .num 2), ("inner", .pc [("flag", .bool false)]),
      ("tags", .list [.str "a", .num 1]), ("mesh", .dict [(.str "nk", .num 8)])]
    load text (.pc d) = .ok (.pc d) :=
  C109_archive_partial text _ (by decide) (by simp [InertEntries, Inert, InertList, InertDict])

/-- **C109.**  A series of such collections comes back in the same order. -/
theorem C109_series (text : Key → String) (l : List Val) (h : ∀ v ∈ l, Inert v) :
    load text (.pcs l) = .ok (.pcs l) := by
  refine load_inert text (.pcs l) ?_
  simp only [Inert]
  induction l with
  | nil => simp [InertList]
  | cons v l ih =>
    simp only [InertList]
    exact ⟨h v (by simp), ih fun w hw => h w (by simp [hw])⟩

/-- **C109 (violated).**  "All" numpy booleans are not cast back: those in a list stay. -/
theorem C109_nested_violated (text : Key → String) (b : Bool) :
    load text (.pc [("flags", .list [.bool b])]) = .ok (.pc [("flags", .list [.npBool b])]) ∧
      (Val.pc [("flags", .list [.npBool b])] ≠ .pc [("flags", .list [.bool b])]) := by
  refine ⟨rfl, ?_⟩
  simp

theorem loadPc_keys (text : Key → String) : ∀ (d d' : List (String × Val)), loadPc text d = .ok d' →
    d'.map Prod.fst = d.map Prod.fst
  | [], d', h => by
    simp only [loadPc, Except.ok.injEq] at h
    rw [← h]
  | (k, v) :: d, d', h => by
    simp only [loadPc] at h
    cases hv : load text v with
    | error e => rw [hv] at h; cases h
    | ok w =>
      rw [hv] at h
      cases hd : loadPc text d with
      | error e => rw [hd] at h; cases h
      | ok d'' =>
        rw [hd] at h
        have : d' = (k, w) :: d'' := by
          simp only [Except.bind, Except.map, Except.ok.injEq] at h
          exact h.symm
        rw [this, List.map_cons, List.map_cons, loadPc_keys text d d'' hd]

/-- **C109 (violated).**  A collection with a parameter named `items` can be written, but reading it never succeeds. -/
theorem C109_items_violated (text : Key → String) (d : List (String × Val)) (h : "items" ∈ d.map Prod.fst) :
    load text (.pc d) = .error .typeError := by
  simp only [load]
  cases hd : loadPc text d with
  | error e => cases e; rfl
  | ok d' =>
    have hk := loadPc_keys text d d' hd
    show factoryPC d' = _
    unfold factoryPC
    rw [hk, if_pos (Or.inr h)]

example : "items" ∈ [("U", Val.num 1), ("items", Val.num 3)].map Prod.fst := by decide

/-- **C109 (violated).**  A key that is not a string comes back as a string. -/
theorem C109_keys_violated (text : Key → String) (i : ℤ) (x : ℤ) :
    load text (.dict [(.int i, .num x)]) = .ok (.dict [(.str (text (.int i)), .num x)]) ∧
      Val.dict [(.str (text (.int i)), .num x)] ≠ .dict [(.int i, .num x)] := by
  refine ⟨rfl, ?_⟩
  simp

/-- **C109.**  `convert_keys_from_string_to_python` restores a dictionary with keys that are not strings, if `eval`
returns the key from its text. -/
theorem C109_convert (text : Key → String) (ev : String → Option Key) (d : List (Key × Val))
    (hev : ∀ k v, (k, v) ∈ d → (∀ s, k ≠ .str s) ∧ ev (text k) = some k) (hi : ∀ k v, (k, v) ∈ d → Inert v) :
    ∃ d', load text (.dict d) = .ok (.dict d') ∧ convertKeys ev d' = .ok d := by
  have key : ∃ d', loadDict text d = .ok d' ∧ convertKeys ev d' = .ok d := by
    induction d with
    | nil => exact ⟨[], rfl, rfl⟩
    | cons e d ih =>
      obtain ⟨k, v⟩ := e
      obtain ⟨d', h1, h2⟩ := ih (fun k' v' h => hev k' v' (List.mem_cons_of_mem _ h))
        (fun k' v' h => hi k' v' (List.mem_cons_of_mem _ h))
      obtain ⟨hk, he⟩ := hev k v (by simp)
      have hm : mangleKey text k = .str (text k) := by
        cases k with
        | str s => exact absurd rfl (hk s)
        | int i => rfl
        | pair a b => rfl
      refine ⟨(mangleKey text k, v) :: d', ?_, ?_⟩
      · simp only [loadDict, load_inert text v (hi k v (by simp)), h1]; rfl
      · simp only [convertKeys, hm, evalKey, he, h2]; rfl
  obtain ⟨d', h1, h2⟩ := key
  refine ⟨d', ?_, h2⟩
  simp only [load, h1]; rfl

example : ∃ (text : Key → String) (ev : String → Option Key),
    ∃ d', load text (.dict [(.pair (.inl "up") (.inr 0), .num 7)]) = .ok (.dict d') ∧
      convertKeys ev d' = .ok [(.pair (.inl "up") (.inr 0), .num 7)] :=
  ⟨fun _ => "('up', 0)", fun _ => some (.pair (.inl "up") (.inr 0)),
    C109_convert _ _ _ (by simp) (by simp [Inert])⟩

/-- **C109 (violated).**  Applied to a dictionary with a string key whose text is not a Python expression, such as a
block name, it fails. -/
theorem C109_convert_violated (ev : String → Option Key) (s : String) (hs : ev s = none) (v : Val)
    (d : List (Key × Val)) : convertKeys ev ((.str s, v) :: d) = .error .evalError := by
  simp only [convertKeys, evalKey, hs]; rfl

/-! ## C109: copies of a series -/

section Copy

variable {V : Type}

theorem getattr_none (names : List String) (hn : "objects" ∉ names) (limit : ℕ) :
    getattr (V := V) names none limit "objects" = .error .recursionError := by
  induction limit with
  | zero => rfl
  | succ n ih => simp only [getattr, if_neg hn, ih]

theorem getattr_none' (names : List String) (hn : "objects" ∉ names) (limit : ℕ) (name : String) (h : name ∉ names) :
    getattr (V := V) names none limit name = .error .recursionError := by
  cases limit with
  | zero => rfl
  | succ n => simp only [getattr, if_neg h, getattr_none names hn]

/-- **C109 (violated).**  A series of collections cannot be copied: `copy.deepcopy` raises `TypeError` and `copy.copy`
(and unpickling) raises an exception, whatever the recursion limit and whatever the collections are, for every Python
version in which `object` has neither `__deepcopy__` nor `__setstate__`. -/
theorem C109_copy_violated (names : List String) (h1 : "objects" ∉ names) (h2 : "__deepcopy__" ∉ names)
    (h3 : "__setstate__" ∉ names) (l : List (Params.Dict V)) (limit : ℕ) :
    deepcopy names (limit + 1) l = .error .typeError ∧ ∃ e, shallowCopy names (limit + 1) l = .error e := by
  constructor
  · unfold deepcopy
    simp only [getattr, if_neg h2]
    rfl
  · unfold shallowCopy
    rw [getattr_none' names h1 _ _ h3]
    by_cases h : "__getstate__" ∈ names
    · refine ⟨.recursionError, ?_⟩
      simp only [getattr, if_pos h]
      rfl
    · refine ⟨.typeError, ?_⟩
      simp only [getattr, if_neg h]
      rfl

/-- the methods the class has meet the hypotheses, together with `__getstate__` of recent Python versions -/
example (l : List (Params.Dict V)) : shallowCopy ("__getstate__" :: methodNames) 1000 l = .error .recursionError := by
  unfold shallowCopy
  rw [getattr_none' _ (by decide) _ _ (by decide)]
  rfl

/-- **C109 (violated).**  A misspelt attribute of a series raises nothing; it gives an array of `None`. -/
theorem C109_misspelt_violated (names : List String) (l : List (Params.Dict V)) (name : String) (limit : ℕ)
    (h1 : name ∉ names) (h2 : name ≠ "objects") (h3 : ∀ d ∈ l, d.get? name = none) :
    getattr names (some l) (limit + 1) name = .ok (.array (List.replicate l.length none)) := by
  simp only [getattr, if_neg h1, if_neg h2, Params.getattrFromObjects]
  congr 2
  rw [List.eq_replicate_iff]
  refine ⟨by simp, ?_⟩
  intro b hb
  obtain ⟨d, hd, rfl⟩ := List.mem_map.1 hb
  exact h3 d hd

end Copy

/-! ## C109: the GW solver -/

section GwStore

open Params

variable {V : Type}

theorem gwReduce_get? (d : Dict V) (k : String) :
    (gwReduce d).get? k = if k = "timer" then none else d.get? k := by
  unfold gwReduce Dict.get?
  induction d with
  | nil => simp
  | cons e d ih =>
    obtain ⟨k', v⟩ := e
    by_cases h : k' = "timer"
    · rw [List.filter_cons_of_neg (by simpa using h), ih]
      by_cases hk : k = "timer"
      · simp [hk]
      · have : (k == k') = false := by simpa [h] using hk
        simp [hk, List.lookup, this]
    · rw [List.filter_cons_of_pos (by simpa using h)]
      by_cases hk : k = k'
      · subst hk
        simp [List.lookup, h]
      · have : (k == k') = false := by simpa using hk
        simp only [List.lookup, this]
        exact ih

theorem gwReduce_wf (d : Dict V) (h : d.WF) : (gwReduce d).WF := by
  unfold gwReduce Dict.WF Dict.keys
  exact (List.Nodup.sublist (List.Sublist.map _ List.filter_sublist) h)

/-- **C109.**  A GW solver read back from an archive has, under every name except `timer`, the attribute that was stored;
what the constructor computes again while loading does not show through.  Its timer is the new one.  The hypothesis says
that the stored solver has at least the attributes the constructor sets, which holds as it was made by the same
constructor. -/
theorem C109_gw (init d : Dict V) (hd : d.WF) (hsub : ∀ k, (d.get? k).isNone → (init.get? k).isNone) (k : String) :
    (gwFactory init (gwReduce d)).get? k = if k = "timer" then init.get? k else d.get? k := by
  unfold gwFactory
  rw [get?_update _ _ (gwReduce_wf d hd), gwReduce_get?]
  by_cases hk : k = "timer"
  · simp [hk]
  · rw [if_neg hk, if_neg hk]
    cases h : d.get? k with
    | some v => rfl
    | none =>
      have := hsub k (by rw [h]; rfl)
      simpa using this

example : (gwFactory [("mu", (0 : ℤ)), ("timer", 9)] (gwReduce [("mu", 5), ("timer", 1), ("sigma", 3)])).get? "mu" =
    some 5 := by decide

end GwStore

end Verif.Storage
