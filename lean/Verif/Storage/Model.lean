import Verif.Params.Model
import Mathlib.Logic.Function.Basic

/-!
# Storing results

Model of `write_TarGZ_HDFArchive` and `read_TarGZ_HDFArchive`, `/repo/python/triqs_tprf/utilities.py:55-83`, and of the
methods by which parameter collections and solvers are stored in HDF5 archives, copied and pickled
(`/repo/python/triqs_tprf/ParameterCollection.py`, `/repo/python/triqs_tprf/gw_solver.py`).

The file system is a map from names to contents.  HDF5 itself is not modelled: an archive is the dictionary written to
it.  Names are lists of characters.
-/

namespace Verif.Storage

/-! ## Compressed archives -/

/-- contents of a file: an HDF5 archive, a compressed archive with its members in order, or anything else -/
inductive File (D : Type) where
  | h5 (data : D)
  | tar (members : List (List Char × D))
  | other (bytes : List Char)

/-- the file system -/
abbrev Fs (D : Type) := List Char → Option (File D)

/-- exceptions of `read_TarGZ_HDFArchive` -/
inductive ReadErr where
  | fileNotFound | notATar | noMember
  deriving DecidableEq, Repr

/-- `filename.split('.')[0]`, `/repo/python/triqs_tprf/utilities.py:56` -/
def base (filename : List Char) : List Char := filename.takeWhile (· ≠ '.')

/-- `filename_h5`, `/repo/python/triqs_tprf/utilities.py:57` -/
def h5Name (filename : List Char) : List Char := base filename ++ ['.', 'h', '5']

/-- `filename_tar`, `/repo/python/triqs_tprf/utilities.py:58` -/
def tarName (filename : List Char) : List Char := base filename ++ ['.', 't', 'a', 'r', '.', 'g', 'z']

variable {D : Type}

/-- `write_TarGZ_HDFArchive`, `/repo/python/triqs_tprf/utilities.py:55-67`: write the HDF5 file (mode `'w'` replaces an
existing file), put it into the compressed archive, remove it. -/
def writeTarGz (fs : Fs D) (filename : List Char) (data : D) : Fs D :=
  let fs := Function.update fs (h5Name filename) (some (.h5 data))
  let fs := Function.update fs (tarName filename) (some (.tar [(h5Name filename, data)]))
  Function.update fs (h5Name filename) none

/-- `read_TarGZ_HDFArchive`, `/repo/python/triqs_tprf/utilities.py:70-83`: the first member of the archive -/
def readTarGz (fs : Fs D) (filename : List Char) : Except ReadErr D :=
  match fs filename with
  | none => .error .fileNotFound
  | some (.tar ((_, d) :: _)) => .ok d
  | some (.tar []) => .error .noMember
  | some _ => .error .notATar

/-! ## Values in archives -/

/-- keys of Python dictionaries: strings and integers and pairs of such (as in `('up', 0)`) -/
inductive Key where
  | str (s : String)
  | int (i : Int)
  | pair (a b : String ⊕ Int)
  deriving DecidableEq

/-- Python values: `np.bool_` and `bool` are different types -/
inductive Val where
  | bool (b : Bool)
  | npBool (b : Bool)
  | num (x : Int)
  | str (s : String)
  | list (l : List Val)
  | dict (d : List (Key × Val))
  /-- `ParameterCollection` -/
  | pc (d : List (String × Val))
  /-- `ParameterCollections` -/
  | pcs (l : List Val)

/-- exceptions while loading -/
inductive LoadErr where
  | typeError
  deriving DecidableEq, Repr

/-- what a key looks like after a round trip through an archive: group names are strings, the key is replaced by
`str(key)` (see `/repo/python/triqs_tprf/ParameterCollection.py:117-120`); `repr` stands for the text of a key that is
not a string -/
def mangleKey (text : Key → String) : Key → Key
  | .str s => .str s
  | k => .str (text k)

/-- `_clean_bools` on one entry, `/repo/python/triqs_tprf/ParameterCollection.py:108-114` -/
def cleanBool : Val → Val
  | .npBool b => .bool b
  | v => v

/-- `type(value) == np.bool_` -/
def isNpBool : Val → Bool
  | .npBool _ => true
  | _ => false

/-- `ParameterCollection.__factory_from_dict__` and `_clean_bools`,
`/repo/python/triqs_tprf/ParameterCollection.py:108-114,132-137`.  `ret._clean_bools` and `self.items` find a parameter
of that name first, which cannot be called; `self.dict()` is only used when there is something to clean. -/
def factoryPC (d : List (String × Val)) : Except LoadErr Val :=
  if "_clean_bools" ∈ d.map Prod.fst ∨ "items" ∈ d.map Prod.fst then .error .typeError
  else if "dict" ∈ d.map Prod.fst ∧ (d.any fun e => isNpBool e.2) then .error .typeError
  else .ok (.pc (d.map fun e => (e.1, cleanBool e.2)))

mutual

/-- a value after writing it to an archive and reading it back.  A `bool` comes back as `np.bool_`
(`/repo/python/triqs_tprf/ParameterCollection.py:109-110`), keys of dictionaries as strings (`:117-120`), collections
through their factories (`:105-106,132-137,226-232`). -/
def load (text : Key → String) : Val → Except LoadErr Val
  | .bool b => .ok (.npBool b)
  | .npBool b => .ok (.npBool b)
  | .num x => .ok (.num x)
  | .str s => .ok (.str s)
  | .list l => (loadList text l).map .list
  | .dict d => (loadDict text d).map .dict
  | .pc d => (loadPc text d).bind factoryPC
  | .pcs l => (loadList text l).map .pcs

/-- entries of lists -/
def loadList (text : Key → String) : List Val → Except LoadErr (List Val)
  | [] => .ok []
  | v :: l => (load text v).bind fun v => (loadList text l).map (v :: ·)

/-- entries of dictionaries -/
def loadDict (text : Key → String) : List (Key × Val) → Except LoadErr (List (Key × Val))
  | [] => .ok []
  | (k, v) :: d => (load text v).bind fun v => (loadDict text d).map ((mangleKey text k, v) :: ·)

/-- entries of parameter collections -/
def loadPc (text : Key → String) : List (String × Val) → Except LoadErr (List (String × Val))
  | [] => .ok []
  | (k, v) :: d => (load text v).bind fun v => (loadPc text d).map ((k, v) :: ·)

end

/-- exceptions of `convert_keys_from_string_to_python`: of `eval`, or because a key is not a string -/
inductive EvalErr where
  | evalError | typeError
  deriving DecidableEq, Repr

/-- `eval(key)`, `/repo/python/triqs_tprf/ParameterCollection.py:124`; `ev` is Python's `eval` on strings, which fails
or returns a key -/
def evalKey (ev : String → Option Key) : Key → Except EvalErr Key
  | .str s => match ev s with
    | some k => .ok k
    | none => .error .evalError
  | _ => .error .typeError

/-- `convert_keys_from_string_to_python`, `/repo/python/triqs_tprf/ParameterCollection.py:116-125`, on the items of the
dictionary -/
def convertKeys (ev : String → Option Key) : List (Key × Val) → Except EvalErr (List (Key × Val))
  | [] => .ok []
  | (k, v) :: d => (evalKey ev k).bind fun k' => (convertKeys ev d).map ((k', v) :: ·)

/-! ## Copying a series of collections -/

/-- exceptions while copying -/
inductive PyErr where
  | typeError | recursionError
  deriving DecidableEq, Repr

/-- results of attribute access on a `ParameterCollections` object -/
inductive Attr (V : Type) where
  | objects (l : List (Params.Dict V))
  | method
  | array (l : List (Option V))

/-- methods of the class, `/repo/python/triqs_tprf/ParameterCollection.py:202-252`; Python's `object` adds further names
depending on the version, but neither `__deepcopy__` nor `__setstate__` -/
def methodNames : List String :=
  ["__init__", "append", "sort_on", "set_sorted_order", "getattr_from_objects", "__getattr__", "__reduce_to_dict__",
    "__factory_from_dict__", "__iter__", "__next__", "__getitem__", "__str__", "__repr__"]

/-- attribute access on a `ParameterCollections` object whose instance dictionary contains `objects` (or nothing);
names found nowhere go to `__getattr__` and `getattr_from_objects`,
`/repo/python/triqs_tprf/ParameterCollection.py:220-224`, which read `self.objects`.  `limit` is the number of nested
calls left and `names` are the names found on the class. -/
def getattr {V : Type} (names : List String) (objects : Option (List (Params.Dict V))) : ℕ → String → Except PyErr (Attr V)
  | 0, _ => .error .recursionError
  | limit + 1, name =>
    match objects with
    | some l =>
      if name = "objects" then .ok (.objects l)
      else if name ∈ names then .ok .method
      else
        -- `__getattr__` reads `self.objects`, which is found
        .ok (.array (Params.getattrFromObjects l name))
    | none =>
      if name ∈ names then .ok .method
      else match getattr names none limit "objects" with
        | .error e => .error e
        | .ok (.objects l) => .ok (.array (Params.getattrFromObjects l name))
        | .ok _ => .error .typeError

/-- calling an attribute: an array is not callable -/
def call {V : Type} : Attr V → Except PyErr Unit
  | .method => .ok ()
  | _ => .error .typeError

/-- `copy.deepcopy(ps)`: the instance is asked for `__deepcopy__`, and the answer is called -/
def deepcopy {V : Type} (names : List String) (limit : ℕ) (l : List (Params.Dict V)) : Except PyErr Unit :=
  (getattr names (some l) limit "__deepcopy__").bind call

/-- `copy.copy(ps)` and `pickle.loads(pickle.dumps(ps))`: the instance is asked for `__getstate__`, which is called;
then a new instance without attributes is asked for `__setstate__` -/
def shallowCopy {V : Type} (names : List String) (limit : ℕ) (l : List (Params.Dict V)) :
    Except PyErr Unit :=
  (getattr names (some l) limit "__getstate__").bind fun a =>
    (call a).bind fun _ => (getattr (V := V) names none limit "__setstate__").bind call

/-! ## Storing the GW solver -/

/-- `GWSolver.__reduce_to_dict__`, `/repo/python/triqs_tprf/gw_solver.py:393-396` -/
def gwReduce {V : Type} (d : Params.Dict V) : Params.Dict V := d.filter fun e => e.1 ≠ "timer"

/-- `GWSolver.__factory_from_dict__`, `/repo/python/triqs_tprf/gw_solver.py:399-403`; `init` are the attributes the
constructor computes from the dispersion, the interaction and the mesh -/
def gwFactory {V : Type} (init : Params.Dict V) (d : Params.Dict V) : Params.Dict V := init.update d

end Verif.Storage
