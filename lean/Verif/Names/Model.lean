import Mathlib.Data.Nat.Bitwise

/-!
# Names in the Python package

A fragment of the semantics of Python that is exact for the life of local names: which names are bound when a name is read. All
values are left out. A function of `/repo/python/triqs_tprf` is represented by the order in which it reads, binds and
deletes names, with all branches, loops, exception handlers and early exits. The functions themselves are in `Verif/Names/Data`.

The rules of Python used here (https://docs.python.org/3/reference/executionmodel.html, naming and binding):

* a name is local to a function if it is a parameter or is bound or deleted anywhere in its body; reading an unbound local name
  raises `UnboundLocalError` (a `NameError`);
* another name is looked up in the enclosing functions, in the module and in the builtins; `NameError` if it is nowhere;
* in a module or class body a name that is not (yet) bound there is looked up further outside;
* lambdas, nested functions and generator expressions read the names of the enclosing function when they are run.
-/

namespace Verif.Names

/-- a Python identifier, numbered in `Verif/Names/Data/Ids.lean` -/
abbrev Nm := ℕ

/-- how often the body of a loop can run -/
inductive Kind
  /-- any number of times (`for`, `while`) -/
  | any
  /-- until it is left (`while True`) -/
  | forever
  /-- at least once; only used to state results that need it -/
  | once
  deriving DecidableEq

/-- A statement, reduced to its effect on names. -/
inductive Stmt
  | skip
  /-- evaluation of an expression that reads these names in this order -/
  | use (xs : List Nm)
  /-- assignment, import, definition: binds the names -/
  | bind (xs : List Nm)
  /-- `del x` -/
  | del (x : Nm)
  /-- creation of a function object that reads these names of the present scope when it is run -/
  | clo (xs : List Nm)
  | seq (a b : Stmt)
  /-- branch, the condition has been evaluated before -/
  | ite (a b : Stmt)
  /-- branch on the truth value of a parameter that is not rebound in the function -/
  | ifv (x : Nm) (a b : Stmt)
  /-- `for` and `while` with `else` branch -/
  | loop (k : Kind) (body els : Stmt)
  /-- `try: body except: handler else: els` -/
  | tryE (body handler els : Stmt)
  /-- `try: body finally: last` -/
  | fin (body last : Stmt)
  | ret
  | raise
  | brk
  | cont

/-- the statements one after another -/
def block : List Stmt → Stmt
  | [] => .skip
  | [s] => s
  | s :: r => .seq s (block r)

/-- How a statement ends: normally, by `break`, `continue`, `return`, by an exception, or by the exception `NameError` for `x`. -/
inductive Outcome
  | norm
  | brk
  | cont
  | ret
  | exc
  | nameErr (x : Nm)
  deriving DecidableEq

/-- What does not change while a function runs: its local names, the names found outside of it, the truth values of its
parameters. -/
structure Ctx where
  loc : Nm → Prop
  glob : Nm → Prop
  truth : Nm → Bool

/-- the bound local names, and the names that function objects created so far may read at any time -/
structure St where
  bound : Nm → Prop
  live : Nm → Prop

def Readable (c : Ctx) (s : St) (x : Nm) : Prop := s.bound x ∨ (¬ c.loc x ∧ c.glob x)

/-- All ways in which a statement can run. Expressions and bindings may raise other exceptions, and may run any function object
created before. -/
inductive Exec (c : Ctx) : Stmt → St → Outcome → St → Prop
  | skip (s) : Exec c .skip s .norm s
  | use_ok (xs : List Nm) (s) : (∀ x ∈ xs, Readable c s x) → Exec c (.use xs) s .norm s
  | use_exc (xs s) : Exec c (.use xs) s .exc s
  | use_err (pre : List Nm) (x) (post : List Nm) (s) : (∀ y ∈ pre, Readable c s y) → ¬ Readable c s x → Exec c (.use (pre ++ x :: post)) s (.nameErr x) s
  | use_live (xs s x) : s.live x → ¬ Readable c s x → Exec c (.use xs) s (.nameErr x) s
  | bind_ok (xs : List Nm) (s) : Exec c (.bind xs) s .norm ⟨fun x => s.bound x ∨ x ∈ xs, s.live⟩
  | bind_exc (xs ys : List Nm) (s) : (∀ y ∈ ys, y ∈ xs) → Exec c (.bind xs) s .exc ⟨fun x => s.bound x ∨ x ∈ ys, s.live⟩
  | del_ok (x s) : s.bound x → Exec c (.del x) s .norm ⟨fun y => s.bound y ∧ y ≠ x, s.live⟩
  | del_err (x s) : ¬ s.bound x → Exec c (.del x) s (.nameErr x) s
  | clo (xs : List Nm) (s) : Exec c (.clo xs) s .norm ⟨s.bound, fun x => s.live x ∨ x ∈ xs⟩
  | seq {a b s t u o} : Exec c a s .norm t → Exec c b t o u → Exec c (.seq a b) s o u
  | seq_stop {a s t o} (b) : o ≠ .norm → Exec c a s o t → Exec c (.seq a b) s o t
  | ite_left {a s o t} (b) : Exec c a s o t → Exec c (.ite a b) s o t
  | ite_right {b s o t} (a) : Exec c b s o t → Exec c (.ite a b) s o t
  | ifv_left {x a s o t} (b) : c.truth x = true → Exec c a s o t → Exec c (.ifv x a b) s o t
  | ifv_right {x b s o t} (a) : c.truth x = false → Exec c b s o t → Exec c (.ifv x a b) s o t
  | loop_done {e s o t} (b) : Exec c e s o t → Exec c (.loop .any b e) s o t
  | loop_last {b e s o t o' u} : (o = .norm ∨ o = .cont) → Exec c b s o t → Exec c e t o' u → Exec c (.loop .once b e) s o' u
  | loop_more {k b e s o t o' u} : (o = .norm ∨ o = .cont) → Exec c b s o t → Exec c (.loop k b e) t o' u →
      Exec c (.loop k b e) s o' u
  | loop_brk {k b s t} (e) : Exec c b s .brk t → Exec c (.loop k b e) s .norm t
  | loop_stop {k b s o t} (e) : (o = .ret ∨ o = .exc ∨ ∃ x, o = .nameErr x) → Exec c b s o t → Exec c (.loop k b e) s o t
  | try_norm {b e s t o u} (h) : Exec c b s .norm t → Exec c e t o u → Exec c (.tryE b h e) s o u
  | try_caught {b h s t o u} (e) : Exec c b s .exc t → Exec c h t o u → Exec c (.tryE b h e) s o u
  | try_stop {b s t o} (h e) : o ≠ .norm → Exec c b s o t → Exec c (.tryE b h e) s o t
  | fin_norm {b f s t o u} : Exec c b s o t → Exec c f t .norm u → Exec c (.fin b f) s o u
  | fin_stop {b f s t o o' u} : (∀ x, o ≠ .nameErr x) → o' ≠ .norm → Exec c b s o t → Exec c f t o' u → Exec c (.fin b f) s o' u
  | fin_err {b s x t} (f) : Exec c b s (.nameErr x) t → Exec c (.fin b f) s (.nameErr x) t
  | ret (s) : Exec c .ret s .ret s
  | raise (s) : Exec c .raise s .exc s
  | brk (s) : Exec c .brk s .brk s
  | cont (s) : Exec c .cont s .cont s

/-- the names bound or deleted anywhere in a statement: Python's rule for local names -/
def Assigns : Stmt → Nm → Prop
  | .bind xs, x => x ∈ xs
  | .del y, x => x = y
  | .seq a b, x => Assigns a x ∨ Assigns b x
  | .ite a b, x => Assigns a x ∨ Assigns b x
  | .ifv _ a b, x => Assigns a x ∨ Assigns b x
  | .loop _ a b, x => Assigns a x ∨ Assigns b x
  | .tryE a b d, x => Assigns a x ∨ Assigns b x ∨ Assigns d x
  | .fin a b, x => Assigns a x ∨ Assigns b x
  | _, _ => False

/-- A function, or the body of a class. -/
structure Fn where
  params : List Nm
  /-- names of the enclosing functions it reads; they are in a `clo` of the enclosing function -/
  outer : List Nm := []
  /-- the body of a class statement -/
  isClass : Bool := false
  /-- names bound only in branches `if False:`, which are left out of `body` -/
  dead : List Nm := []
  /-- parameters whose truth values the checker has to distinguish; without meaning for the program -/
  flags : List Nm := []
  body : Stmt

/-- A module: the code run on import, the names taken from `from ... import *` of other packages, its functions. -/
structure Mod where
  top : Stmt
  star : List Nm := []
  fns : List Fn

/-- context of the code run on import: `B` are the builtin names -/
def Mod.ctx (B : List Nm) (m : Mod) (truth : Nm → Bool) : Ctx :=
  { loc := fun _ => False, glob := fun x => x ∈ B ∨ x ∈ m.star, truth := truth }

/-- the import of the module succeeds and leaves the names of `s` -/
def Mod.Imported (B : List Nm) (m : Mod) (s : St) : Prop :=
  ∃ truth, Exec (m.ctx B truth) m.top ⟨fun _ => False, fun _ => False⟩ .norm s

/-- context of a function after the import of the module -/
def Fn.ctx (B : List Nm) (m : Mod) (s : St) (f : Fn) (truth : Nm → Bool) : Ctx :=
  { loc := fun x => f.isClass = false ∧ (x ∈ f.params ∨ x ∈ f.dead ∨ Assigns f.body x)
    glob := fun x => x ∈ B ∨ x ∈ m.star ∨ x ∈ f.outer ∨ s.bound x
    truth := truth }

/-- A call of the function `f` of the module `m` ends with `o`, the local names are then those of `t`. -/
def Fn.Call (B : List Nm) (m : Mod) (s : St) (f : Fn) (truth : Nm → Bool) (o : Outcome) (t : St) : Prop :=
  Exec (f.ctx B m s truth) f.body ⟨fun x => x ∈ f.params, fun _ => False⟩ o t

end Verif.Names
