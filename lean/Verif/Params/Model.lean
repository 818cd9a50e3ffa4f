import Mathlib.Data.List.Basic
import Mathlib.Data.List.Perm.Basic
import Mathlib.Data.String.Basic

/-!
# Parameter collections

Model of `python/triqs_tprf/ParameterCollection.py`. Python values are an arbitrary type `V`; a Python
`dict` is an association list in insertion order; objects live in a heap and are addressed by their
position in it, so that aliasing is visible. Values are references: what they point to is not
modelled (the copies are shallow).
-/

namespace Verif.Params

/-- Python exceptions -/
inductive Err
  | typeError
  | keyError
  | attributeError
  | valueError
  deriving DecidableEq, Repr

/-- a Python `dict` with string keys, in insertion order -/
abbrev Dict (V : Type) := List (String × V)

section

variable {V : Type}

/-- `d[key] = value`: an existing key keeps its place. -/
def Dict.set (d : Dict V) (key : String) (value : V) : Dict V :=
  match d with
  | [] => [(key, value)]
  | (k, v) :: d => if k = key then (k, value) :: d else (k, v) :: Dict.set d key value

/-- `d.update(other)` -/
def Dict.update (d other : Dict V) : Dict V := other.foldl (fun d kv => d.set kv.1 kv.2) d

/-- `d.get(key)` -/
def Dict.get? (d : Dict V) (key : String) : Option V := List.lookup key d

/-- the keys -/
def Dict.keys (d : Dict V) : List String := d.map Prod.fst

/-- Calling a function `f(self, **kwargs)` with a dictionary fails when it contains the name of the
positional parameter. -/
def checkKwargs (kwargs : Dict V) : Except Err Unit :=
  if "self" ∈ kwargs.keys then .error .typeError else .ok ()

/-- `ParameterCollection.__init__` (ParameterCollection.py:73-74): the attribute dictionary of the
new object. -/
def construct (kwargs : Dict V) : Except Err (Dict V) := do
  checkKwargs kwargs
  return Dict.update [] kwargs

/-- `copy` (ParameterCollection.py:96-100) -/
def copyDict (d : Dict V) : Except Err (Dict V) := construct d

/-- `alter` (ParameterCollection.py:85-94) -/
def alterDict (d kwargs : Dict V) : Except Err (Dict V) := do
  checkKwargs kwargs
  let p ← copyDict d
  return p.update kwargs

/-- The objects created so far: attribute dictionaries, addressed by position. -/
abbrev Heap (V : Type) := List (Dict V)

/-- What a user can do with parameter collections. -/
inductive Cmd (V : Type)
  | new (kwargs : Dict V)
  | copy (p : ℕ)
  | alter (p : ℕ) (kwargs : Dict V)
  /-- attribute assignment `p.key = value` -/
  | setattr (p : ℕ) (key : String) (value : V)
  /-- `grab_attribs(obj, keys)` (ParameterCollection.py:125-128) for a parameter collection `obj` -/
  | grab (p obj : ℕ) (keys : List String)

/-- `grab_attribs` (ParameterCollection.py:125-128): stops at the first missing attribute, with the
earlier ones already assigned. -/
def grabLoop (src : Dict V) : List String → Dict V → Dict V × Option Err
  | [], d => (d, none)
  | k :: ks, d =>
    match src.get? k with
    | none => (d, some .attributeError)
    | some v => grabLoop src ks (d.set k v)

/-- One command: the heap afterwards and the exception, if any. A failing command leaves what it
did before failing. -/
def step (h : Heap V) : Cmd V → Heap V × Option Err
  | .new kwargs =>
    match construct kwargs with
    | .ok d => (h ++ [d], none)
    | .error e => (h, some e)
  | .copy p =>
    match h[p]? with
    | none => (h, some .attributeError)
    | some d =>
      match copyDict d with
      | .ok d' => (h ++ [d'], none)
      | .error e => (h, some e)
  | .alter p kwargs =>
    match h[p]? with
    | none => (h, some .attributeError)
    | some d =>
      match alterDict d kwargs with
      | .ok d' => (h ++ [d'], none)
      | .error e => (h, some e)
  | .setattr p key value =>
    match h[p]? with
    | none => (h, some .attributeError)
    | some d => (h.set p (d.set key value), none)
  | .grab p obj keys =>
    match h[p]?, h[obj]? with
    | some d, some src =>
      -- for `p = obj` every value is assigned to itself
      let r := grabLoop src keys d
      (h.set p r.1, r.2)
    | _, _ => (h, some .attributeError)

/-- A history of commands; exceptions are caught by the caller. -/
def run (h : Heap V) (cs : List (Cmd V)) : Heap V := cs.foldl (fun h c => (step h c).1) h

/-! ## Scans -/

/-- `itertools.product(*ls)`: the last list varies fastest. -/
def product {α : Type} : List (List α) → List (List α)
  | [] => [[]]
  | l :: ls => l.flatMap fun x => (product ls).map fun xs => x :: xs

/-- `parameter_scan` (ParameterCollection.py:260-305): the attribute dictionaries of the returned
collections, in order. -/
def parameterScan (p : Dict V) (kwargs : List (String × List V)) : Except Err (List (Dict V)) :=
  -- parameter_values.append(zip([key]*len(value), value))
  let values := kwargs.map fun kv => kv.2.map fun v => (kv.1, v)
  -- ps.append(p.alter(**dict(parameter_value)))
  (product values).mapM fun pv => alterDict p (Dict.update [] pv)

end

/-! ## Series of collections -/

/-- Lists and `ParameterCollections` objects. List 0 is the default argument of
`ParameterCollections.__init__`, created once when the class is defined. `colls` holds for each
`ParameterCollections` object the list its attribute `objects` refers to. -/
structure World (α : Type) where
  /-- list objects -/
  lists : List (List α)
  /-- the attribute `objects` of each collection -/
  colls : List ℕ

/-- The world after importing the module. -/
def World.init (α : Type) : World α := ⟨[[]], []⟩

/-- What a user can do with series of collections. -/
inductive CCmd (α : Type)
  /-- a new list object -/
  | newList (xs : List α)
  /-- `ParameterCollections()` -/
  | newDefault
  /-- `ParameterCollections(objects)` with an existing list object -/
  | newFrom (l : ℕ)
  /-- `append` (ParameterCollection.py:208-209) -/
  | append (c : ℕ) (x : α)
  /-- `set_sorted_order(sorted_idx)` (ParameterCollection.py:216-218) -/
  | reorder (c : ℕ) (idx : List ℕ)

variable {α : Type}

/-- the contents of a collection -/
def World.contents (w : World α) (c : ℕ) : Option (List α) :=
  (w.colls[c]?).bind fun l => w.lists[l]?

/-- One command (ParameterCollection.py:205-218). -/
def cstep (w : World α) : CCmd α → World α
  | .newList xs => { w with lists := w.lists ++ [xs] }
  | .newDefault => { w with colls := w.colls ++ [0] }
  | .newFrom l => if l < w.lists.length then { w with colls := w.colls ++ [l] } else w
  | .append c x =>
    match w.colls[c]? with
    | none => w
    | some l =>
      match w.lists[l]? with
      | none => w
      | some xs => { w with lists := w.lists.set l (xs ++ [x]) }
  | .reorder c idx =>
    match w.colls[c]? with
    | none => w
    | some l =>
      match w.lists[l]? with
      | none => w
      | some xs =>
        -- self.objects = list(np.array(self.objects)[sidx]): a new list object
        match idx.mapM (fun i => xs[i]?) with
        | none => w
        | some ys => { lists := w.lists ++ [ys], colls := w.colls.set c w.lists.length }

/-- a history -/
def crun (w : World α) (cs : List (CCmd α)) : World α := cs.foldl cstep w

/-- `getattr_from_objects` (ParameterCollection.py:220-221): missing attributes give `None`. -/
def getattrFromObjects {V : Type} (objs : List (Dict V)) (attr : String) : List (Option V) :=
  objs.map fun o => o.get? attr

end Verif.Params
