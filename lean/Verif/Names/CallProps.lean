import Verif.Names.Props
import Verif.Names.Data.Sites

/-!
# C119: calls and imports between the modules fit
-/

namespace Verif.Names

theorem sites_fit : sites.all (fun c => c.sigs.any fun g => g.fits c.npos c.kws) = true := by decide +kernel

/-- **C119** (calls): for every call of a function or method of the package in the package there is an overload that accepts the
arguments, whatever their values are: the i-th argument goes to the i-th parameter, keyword arguments to the parameter of that name,
no parameter gets two values and no parameter without default is left out. -/
theorem C119_calls {c : Site} (hc : c ∈ sites) : ∃ g ∈ c.sigs, ∀ {α : Type} (pos : List α) (kw : List (Nm × α)),
    pos.length = c.npos → kw.map Prod.fst = c.kws →
    ∃ r, g.bind pos kw = .ok r ∧ (∀ i (hi : i < pos.length), ∃ p, g.params[i]? = some p ∧ (p, pos[i]) ∈ r) ∧ (∀ a ∈ kw, a ∈ r) ∧
      (r.map Prod.fst).Nodup ∧ ∀ x ∈ g.required, x ∈ r.map Prod.fst := by
  have h := List.all_eq_true.1 sites_fit c hc
  obtain ⟨g, hg, hf⟩ := List.any_eq_true.1 h
  refine ⟨g, hg, fun {α} pos kw hp hk => ?_⟩
  obtain ⟨h1, h2, h3⟩ := bind_ok hf hp hk
  refine ⟨_, h1, fun i hi => ?_, fun a ha => List.mem_append.2 (.inr ha), h2, h3⟩
  have hlen : c.npos ≤ g.params.length := by
    simp only [Sig.fits, Bool.and_eq_true, decide_eq_true_eq] at hf
    exact hf.1.1.1.1
  have hi' : i < g.params.length := by omega
  refine ⟨g.params[i], List.getElem?_eq_getElem hi', List.mem_append.2 (.inl ?_)⟩
  have hz : i < (g.params.zip pos).length := by rw [List.length_zip]; omega
  have := List.getElem_mem hz
  rwa [List.getElem_zip] at this

/-- the number of calls -/
example : sites.length = 349 := by decide +kernel

/-- a call of a function with overloads: `fourier_wk_to_wr(g_wk)` -/
example : ∃ c ∈ sites, 1 < c.sigs.length ∧ c.npos = 1 := by decide +kernel

/-- a call with a keyword that the function does not have is refused -/
example : (⟨[n_op], [n_op], false, false, []⟩ : Sig).bind [1] [(n_U, 2)] = .error (.unexpected n_U) := by decide +kernel

theorem imports_found : imports.all (fun i => match package[i.target]? with
    | some m => ((m.globals builtins).getD 0).testBit i.name
    | none => match compiled[i.target - package.length]? with
      | some l => l.contains i.name
      | none => false) = true := by decide +kernel

/-- **C119** (imports): every name imported from another module of the package is there: bound after the import of the Python
module, or a function of the compiled module. -/
theorem C119_imports {i : Imp} (hi : i ∈ imports) :
    (∃ m, package[i.target]? = some m ∧ ∀ s, m.Imported builtins s → s.bound i.name) ∨
    (∃ l, package.length ≤ i.target ∧ compiled[i.target - package.length]? = some l ∧ i.name ∈ l) := by
  have h := List.all_eq_true.1 imports_found i hi
  cases hm : package[i.target]? with
  | some m =>
    refine .inl ⟨m, rfl, fun s hs => ?_⟩
    rw [hm] at h
    obtain ⟨G, hG, -⟩ := mod_check (List.mem_of_getElem? hm)
    obtain ⟨truth, hs⟩ := hs
    dsimp only at h
    rw [hG] at h
    exact (import_globals hG hs).2 rfl _ h
  | none =>
    rw [hm] at h
    refine .inr ?_
    cases hl : compiled[i.target - package.length]? with
    | none => rw [hl] at h; exact absurd h (by simp)
    | some l =>
      rw [hl] at h
      exact ⟨l, List.getElem?_eq_none_iff.1 hm, rfl, List.contains_iff_mem.1 h⟩

theorem imports_ranked : imports.all (fun i => !i.atTop || decide (rank.getD i.target 0 < rank.getD i.src 0)) = true := by
  decide +kernel

/-- `a` imports `b`, directly or through other modules, when it is imported -/
inductive Needs : ℕ → ℕ → Prop
  | direct {i : Imp} : i ∈ imports → i.atTop = true → Needs i.src i.target
  | trans {a b c : ℕ} : Needs a b → Needs b c → Needs a c

/-- **C119** (order): no module needs itself to be imported before it, so the imports of all modules come to an end and find
modules that are complete. -/
theorem C119_order (a : ℕ) : ¬ Needs a a := by
  have key : ∀ a b, Needs a b → rank.getD b 0 < rank.getD a 0 := by
    intro a b h
    induction h with
    | direct hi ht =>
      have h := List.all_eq_true.1 imports_ranked _ hi
      rw [ht] at h
      simpa using h
    | trans _ _ h1 h2 => exact h2.trans h1
  exact fun h => lt_irrefl _ (key a a h)

end Verif.Names
