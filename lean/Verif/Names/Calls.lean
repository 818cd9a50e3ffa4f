import Verif.Names.Package

/-!
# Calls and imports between the modules

How Python binds the arguments of a call to the parameters of a function
(https://docs.python.org/3/reference/expressions.html#calls).
-/

namespace Verif.Names

/-- The parameters of a function. For the compiled functions one per `add_function` in the files `*_desc.py`. -/
structure Sig where
  params : List Nm
  /-- parameters without default value -/
  required : List Nm
  /-- `*args` -/
  varPos : Bool := false
  /-- `**kwargs` -/
  varKw : Bool := false
  kwOnly : List Nm := []

/-- reasons for `TypeError` -/
inductive BindErr
  | tooMany
  | multiple (x : Nm)
  | unexpected (x : Nm)
  | missing (x : Nm)
  deriving DecidableEq

/-- keyword arguments one after another -/
def Sig.keywords {α : Type*} (g : Sig) : List (Nm × α) → List (Nm × α) → Except BindErr (List (Nm × α))
  | slots, [] => .ok slots
  | slots, (k, v) :: r =>
    if k ∈ slots.map Prod.fst then .error (.multiple k)
    else if k ∈ g.params ∨ k ∈ g.kwOnly ∨ g.varKw = true then g.keywords (slots ++ [(k, v)]) r
    else .error (.unexpected k)

/-- the values of the parameters in a call with positional arguments `pos` and keyword arguments `kw` -/
def Sig.bind {α : Type*} (g : Sig) (pos : List α) (kw : List (Nm × α)) : Except BindErr (List (Nm × α)) :=
  if g.params.length < pos.length ∧ g.varPos = false then .error .tooMany
  else
    match g.keywords (g.params.zip pos) kw with
    | .error e => .error e
    | .ok slots =>
      match g.required.find? fun x => x ∉ slots.map Prod.fst with
      | some x => .error (.missing x)
      | none => .ok slots

/-- A call of a function of the package: the overloads of the function (one for Python functions), the number of positional
arguments and the names of the keyword arguments. -/
structure Site where
  line : ℕ
  sigs : List Sig
  npos : ℕ
  kws : List Nm

/-- An import `from target import name`: the importing module and the module it is taken from, both by number -/
structure Imp where
  /-- the importing module -/
  src : ℕ
  line : ℕ
  /-- the module -/
  target : ℕ
  name : Nm
  /-- at the top of the module, not in a function -/
  atTop : Bool

/-- the result depends only on the number of positional arguments and the names of keyword arguments -/
def Sig.fits (g : Sig) (npos : ℕ) (kws : List Nm) : Bool :=
  decide (npos ≤ g.params.length) &&
  (kws.all fun k => (g.params.take npos).all (· != k) && (g.params.contains k || g.kwOnly.contains k || g.varKw)) &&
  decide (kws.Nodup) &&
  decide (g.params.Nodup) &&
  (g.required.all fun x => (g.params.take npos).contains x || kws.contains x)

theorem keywords_ok {α : Type*} (g : Sig) (kw : List (Nm × α)) :
    ∀ slots : List (Nm × α), (∀ k ∈ kw.map Prod.fst, k ∉ slots.map Prod.fst) → (kw.map Prod.fst).Nodup →
      (∀ k ∈ kw.map Prod.fst, k ∈ g.params ∨ k ∈ g.kwOnly ∨ g.varKw = true) → g.keywords slots kw = .ok (slots ++ kw) := by
  induction kw with
  | nil => intro slots _ _ _; simp [Sig.keywords]
  | cons a r ih =>
    obtain ⟨k, v⟩ := a
    intro slots h1 h2 h3
    simp only [List.map_cons, List.nodup_cons] at h2
    rw [Sig.keywords, if_neg (h1 k (by simp)), if_pos (h3 k (by simp)), ih, List.append_assoc, List.singleton_append]
    · intro k' hk'
      simp only [List.map_append, List.map_cons, List.map_nil, List.mem_append, List.mem_singleton, not_or]
      refine ⟨h1 k' (by simp only [List.map_cons, List.mem_cons]; exact .inr hk'), ?_⟩
      rintro rfl
      exact h2.1 hk'
    · exact h2.2
    · exact fun k' hk' => h3 k' (by simp only [List.map_cons, List.mem_cons]; exact .inr hk')

theorem zip_keys {α : Type*} : ∀ (ps : List Nm) (pos : List α), pos.length ≤ ps.length → (ps.zip pos).map Prod.fst = ps.take pos.length
  | _, [], _ => by simp
  | [], _ :: _, h => by simp at h
  | p :: ps, v :: pos, h => by
    simp only [List.zip_cons_cons, List.map_cons, List.length_cons, List.take_succ_cons, List.cons.injEq, true_and]
    exact zip_keys ps pos (by simpa using h)

/-- A call of the right shape binds every argument to the parameter it is meant for, and every required parameter. -/
theorem bind_ok {α : Type*} {g : Sig} {npos : ℕ} {kws : List Nm} (h : g.fits npos kws = true) {pos : List α} {kw : List (Nm × α)}
    (hp : pos.length = npos) (hk : kw.map Prod.fst = kws) :
    g.bind pos kw = .ok (g.params.zip pos ++ kw) ∧ ((g.params.zip pos ++ kw).map Prod.fst).Nodup ∧
      ∀ x ∈ g.required, x ∈ (g.params.zip pos ++ kw).map Prod.fst := by
  simp only [Sig.fits, Bool.and_eq_true, decide_eq_true_eq, List.all_eq_true, Bool.or_eq_true, List.contains_iff_mem, bne_iff_ne] at h
  obtain ⟨⟨⟨⟨h1, h2⟩, h3⟩, h4⟩, h5⟩ := h
  subst hp hk
  have hz := zip_keys g.params pos h1
  have hdis : ∀ k ∈ kw.map Prod.fst, k ∉ (g.params.zip pos).map Prod.fst := by
    intro k hk hm
    rw [hz] at hm
    exact (h2 k hk).1 k hm rfl
  have hkey := keywords_ok g kw (g.params.zip pos) hdis h3 (fun k hk => by
    rcases (h2 k hk).2 with (h | h) | h
    · exact .inl h
    · exact .inr (.inl h)
    · exact .inr (.inr h))
  have hreq : ∀ x ∈ g.required, x ∈ (g.params.zip pos ++ kw).map Prod.fst := by
    intro x hx
    rw [List.map_append, List.mem_append, hz]
    exact h5 x hx
  refine ⟨?_, ?_, hreq⟩
  · unfold Sig.bind
    rw [if_neg (by intro h; exact absurd h.1 (by omega)), hkey]
    have : (g.required.find? fun x => x ∉ (g.params.zip pos ++ kw).map Prod.fst) = none := by
      rw [List.find?_eq_none]
      intro x hx
      simp only [decide_eq_true_eq, not_not]
      exact hreq x hx
    simp only [this]
  · rw [List.map_append, List.nodup_append, hz]
    refine ⟨h4.sublist (List.take_sublist _ _), h3, ?_⟩
    rintro a ha b hb rfl
    exact (h2 a hb).1 a ha rfl

end Verif.Names
