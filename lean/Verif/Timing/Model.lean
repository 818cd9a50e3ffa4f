import Mathlib.Data.List.Lex
import Mathlib.Data.List.Sort
import Mathlib.Data.String.Basic
import Mathlib.Data.Real.Basic

/-!
# Timer

Model of `python/triqs_tprf/ase_timing.py`. A path of nested timers is the list of their names,
outermost first. Every call of `time.time()` is an explicit argument (a reading of the clock); the
readings are arbitrary real numbers. The dictionary `timers` is its list of keys in insertion order
together with the stored values.
-/

noncomputable section

namespace Verif.Timing

/-- a path of names -/
abbrev Path := List String

/-- Python exceptions -/
inductive Err
  | runtimeError
  | indexError
  | keyError
  | zeroDivision
  deriving DecidableEq

/-- `Timer` (ase_timing.py:75-79) -/
structure Timer where
  /-- keys of `timers` -/
  keys : List Path
  /-- values of `timers` -/
  val : Path → ℝ
  /-- names of the running timers, outermost first -/
  running : List String
  /-- time of construction -/
  t0 : ℝ
  /-- nesting levels to print -/
  printLevels : ℕ

/-- `__init__` (ase_timing.py:75-79) -/
def Timer.init (now : ℝ) (printLevels : ℕ) : Timer := ⟨[], fun _ => 0, [], now, printLevels⟩

/-- `timers[names] = x` -/
def Timer.put (s : Timer) (names : Path) (x : ℝ) : Timer :=
  { s with
    keys := if names ∈ s.keys then s.keys else s.keys ++ [names]
    val := Function.update s.val names x }

/-- `timers.get(names, 0.0)` -/
def Timer.get (s : Timer) (names : Path) : ℝ := if names ∈ s.keys then s.val names else 0

/-- `start` (ase_timing.py:85-88) -/
def Timer.start (s : Timer) (name : String) (now : ℝ) : Timer :=
  let names := s.running ++ [name]
  { s.put names (s.get names - now) with running := s.running ++ [name] }

/-- `stop` (ase_timing.py:90-100): the state afterwards and the returned path or the exception. -/
def Timer.stop (s : Timer) (name : Option String) (now : ℝ) : Timer × Except Err Path :=
  match s.running.getLast? with
  -- self.running[-1] resp. self.running.pop()
  | none => (s, .error .indexError)
  | some top =>
    let name := name.getD top
    let names := s.running
    let s1 := { s with running := s.running.dropLast }
    if name ≠ top then (s1, .error .runtimeError)
    else if names ∈ s1.keys then (s1.put names (s1.val names + now), .ok names)
    else (s1, .error .keyError)

/-- `get_time` (ase_timing.py:124-125) -/
def Timer.getTime (s : Timer) (names : Path) : Except Err ℝ :=
  if names ∈ s.keys then .ok (s.val names) else .error .keyError

/-- `add` (ase_timing.py:178-180) -/
def Timer.add (s other : Timer) : Timer :=
  other.keys.foldl (fun s names => s.put names (s.get names + other.val names)) s

/-! ## write -/

/-- `while self.running: self.stop()` (ase_timing.py:129-130): `n` passes, reading the clock from
`clock i` on. -/
def stopAll : ℕ → Timer → (ℕ → ℝ) → ℕ → Timer
  | 0, s, _, _ => s
  | n + 1, s, clock, i => stopAll n (s.stop none (clock i)).1 clock (i + 1)

/-- `for name in were_running: self.start(name)` (ase_timing.py:175-176) -/
def startAll : List String → Timer → (ℕ → ℝ) → ℕ → Timer
  | [], s, _, _ => s
  | name :: names, s, clock, i => startAll names (s.start name (clock i)) clock (i + 1)

/-- The accounting loop (ase_timing.py:146-153): exclusive times and time not covered. -/
def exclusiveStep (printLevels : ℕ) (st : (Path → ℝ) × ℝ) (names : Path) : (Path → ℝ) × ℝ :=
  let t := st.1 names
  if 1 < names.length then
    if names.length < printLevels + 1 then
      (Function.update st.1 names.dropLast (st.1 names.dropLast - t), st.2)
    else st
  else (st.1, st.2 - t)

/-- a printed row -/
structure Row where
  /-- path of the timer -/
  names : Path
  /-- inclusive time -/
  incl : ℝ
  /-- exclusive time -/
  excl : ℝ

/-- the printed table -/
structure Table where
  /-- printed rows in order -/
  rows : List Row
  /-- total time -/
  total : ℝ

/-- the rows printed for given times (ase_timing.py:142-171) -/
def report (keys : List Path) (val : Path → ℝ) (printLevels : ℕ) (tot : ℝ) : List Row :=
  let sorted := keys.insertionSort (· ≤ ·)
  let st := sorted.foldl (exclusiveStep printLevels) (val, tot)
  let exclusive := Function.update st.1 ["Other"] st.2
  let inclusive := Function.update val ["Other"] st.2
  let names := sorted ++ [["Other"]]
  (names.filter fun p => p.length ≤ printLevels).map fun p => ⟨p, inclusive p, exclusive p⟩

/-- `write` (ase_timing.py:127-176): the state afterwards and the printed table (nothing is printed
when there are no timers). Formatting and the bars are not modelled. Dividing by a total time of
zero raises, with the timers stopped. -/
def Timer.write (s : Timer) (clock : ℕ → ℝ) : Timer × Except Err (Option Table) :=
  let n := s.running.length
  let s1 := stopAll n s clock 0
  if s1.keys = [] then (s1, .ok none)
  else
    let tot := clock n - s1.t0
    open Classical in
    if tot = 0 then (s1, .error .zeroDivision)
    else (startAll s.running s1 clock (n + 1),
      .ok (some ⟨report s1.keys s1.val s1.printLevels tot, tot⟩))

/-! ## Timed methods -/

/-- A method: what it does to the timer and how it ends. -/
abbrev Method (E R : Type) := Timer → Timer × Except E R

/-- the decorator `timer` (ase_timing.py:198-212): `start`, call, `stop` with `IndexError` ignored;
`stop()` without a name raises nothing else unless the dictionary entry is missing. -/
def decorated {E R : Type} (name : String) (m : Method E R) (t t' : ℝ) :
    Timer → Timer × Except (E ⊕ Err) R := fun s =>
  match m (s.start name t) with
  | (s1, .error e) => (s1, .error (.inl e))
  | (s1, .ok r) =>
    match s1.stop none t' with
    | (s2, .ok _) => (s2, .ok r)
    | (s2, .error .indexError) => (s2, .ok r)
    | (s2, .error e) => (s2, .error (.inr e))

/-- `with timer(name): body` (ase_timing.py:102-122): `__exit__` stops the timer however the body
ends. -/
def withTimer {E R : Type} (name : String) (m : Method E R) (t t' : ℝ) :
    Timer → Timer × Except (E ⊕ Err) R := fun s =>
  match m (s.start name t) with
  | (s1, r) =>
    match s1.stop none t' with
    | (s2, .ok _) => (s2, r.mapError .inl)
    | (s2, .error e) => (s2, .error (.inr e))

end Verif.Timing
