import Verif.Operators.Props
import Verif.Operators.LibraryLemmas
import Mathlib.Data.Prod.Lex

/-!
# Model of the operator checks in `OperatorUtils.py` and of the interaction taken by `HartreeFockSolver`

An operator is given by `list(op)`, the list of its `(monomial, coefficient)` pairs, wherever the code iterates over it,
and by its value `Op ι` where it is compared or multiplied.
-/

noncomputable section

set_option linter.unusedSectionVars false

namespace Verif.Operators

variable {ι : Type} [LinearOrder ι]

/-- exceptions of the functions of this file -/
inductive PyErr
  /-- `AssertionError` -/
  | assertion
  /-- `ValueError`: too few values to unpack -/
  | value
deriving DecidableEq, Repr

/-- `fundamental_operators_from_gf_struct` (OperatorUtils.py:38-50, rpa_tensor.py:46-55): the indices of the operators
`c(block, idx)`, for `gf_struct` given as list of names and sizes -/
def fundamentalOperators {β : Type} (gfStruct : List (β × ℕ)) : List (β ×ₗ ℕ) :=
  gfStruct.foldl (fun acc b => (List.range b.2).foldl (fun acc i => acc ++ [toLex (b.1, i)]) acc) []

/-- `op_is_fundamental` (OperatorUtils.py:68-82) -/
def opIsFundamental (ts : List (Mono ι × ℂ)) : Bool :=
  match ts with
  | [t] => decide (t.1.length = 1)
  | _ => false

/-- `op_serialize_fundamental` (OperatorUtils.py:85-91) -/
def opSerialize (ts : List (Mono ι × ℂ)) : Except PyErr (Gen ι) :=
  if opIsFundamental ts then
    match ts with
    | (g :: _, _) :: _ => .ok g
    | _ => .error .assertion
  else .error .assertion

/-- `get_operator_index_map` (OperatorUtils.py:94-109) with `include_dag=True` -/
def operatorIndexMapDag (ops : List (List (Mono ι × ℂ))) : Except PyErr (List (Gen ι)) :=
  ops.foldlM (fun acc op => do let g ← opSerialize op; return acc ++ [g]) []

/-- `get_operator_index_map` (OperatorUtils.py:94-109) with `include_dag=False` -/
def operatorIndexMap (ops : List (List (Mono ι × ℂ))) : Except PyErr (List ι) :=
  ops.foldlM (fun acc op => do
    let g ← opSerialize op
    if g.dag = false then return acc ++ [g.idx] else throw .assertion) []

/-- the double loop of `get_quadratic_operator` (OperatorUtils.py:59-65) over a list of operators as given -/
def quadLoopOps {n : ℕ} (ops : Fin n → Op ι) (h : Fin n → Fin n → ℂ) : Op ι :=
  (List.finRange n).foldl (fun H i =>
    (List.finRange n).foldl (fun H j => H + mul (h i j • dagger (ops i)) (ops j)) H) 0

open Classical in
/-- body of the loop of `is_operator_composed_of_only_fundamental_operators` (OperatorUtils.py:356-363): without
operators in the term `list(zip(*op_list))` is empty and cannot be unpacked into `d, t` -/
def composedStep (ops : List (Op ι)) (isFundamental : Bool) (t : Mono ι × ℂ) : Except PyErr Bool :=
  match t.1 with
  | [] => .error .value
  | g :: m => .ok ((g :: m).foldl (fun r x => if c x.idx ∈ ops then r else false) isFundamental)

/-- `is_operator_composed_of_only_fundamental_operators` (OperatorUtils.py:347-365) -/
def isComposed (ops : List (Op ι)) (ts : List (Mono ι × ℂ)) : Except PyErr Bool :=
  ts.foldlM (composedStep ops) true

/-- the part of the constructor of `HartreeFockSolver` that reads the interaction (hf_solver.py:113-139), with
`gf_struct` given; `none` is `H_int=None` -/
def initInteraction (fs : List ι) (Hint : Option (List (Mono ι × ℂ))) : Except PyErr (T4 fs.length) :=
  match Hint with
  | none => .ok fun _ _ _ _ => 0
  | some ts =>
    match isComposed (fs.map c) ts with
    | .error e => .error e
    | .ok false => .error .assertion
    | .ok true =>
      match getRpaTensor fs ts with
      | .error _ => .error .assertion
      | .ok U => .ok U

/-! ## Lemmas -/

theorem elem_injective : Function.Injective (elem : Gen ι → Op ι) := by
  intro g h e
  have := Finsupp.single_left_injective (one_ne_zero (α := ℂ)) e
  simpa using this

theorem c_mem_iff (fs : List ι) (i : ι) : c i ∈ fs.map c ↔ i ∈ fs := by
  constructor
  · intro h
    obtain ⟨j, hj, e⟩ := List.mem_map.1 h
    have := elem_injective e
    simp only [Gen.mk.injEq, true_and] at this
    exact this ▸ hj
  · exact fun h => List.mem_map_of_mem h

theorem composed_foldl (fs : List ι) (m : Mono ι) (r : Bool) : (open Classical in
    m.foldl (fun r x => if c x.idx ∈ fs.map c then r else false) r) = true ↔ r = true ∧ ∀ g ∈ m, g.idx ∈ fs := by
  classical
  induction m generalizing r with
  | nil => simp
  | cons g m ih =>
    rw [List.foldl_cons, ih]
    by_cases h : g.idx ∈ fs
    · rw [if_pos ((c_mem_iff fs g.idx).2 h)]
      simp [h]
    · rw [if_neg fun h' => h ((c_mem_iff fs g.idx).1 h')]
      simp [h]

theorem isComposed_ok (fs : List ι) (ts : List (Mono ι × ℂ)) (h : ∀ t ∈ ts, t.1 ≠ []) (r : Bool) :
    ∃ b, ts.foldlM (composedStep (fs.map c)) r = .ok b ∧
      (b = true ↔ r = true ∧ ∀ t ∈ ts, ∀ g ∈ t.1, g.idx ∈ fs) := by
  induction ts generalizing r with
  | nil => exact ⟨r, rfl, by simp⟩
  | cons t ts ih =>
    have ht := h t List.mem_cons_self
    obtain ⟨m, a⟩ := t
    cases m with
    | nil => exact absurd rfl ht
    | cons g m =>
      obtain ⟨b, h1, h2⟩ := ih (fun t ht => h t (List.mem_cons_of_mem _ ht)) (open Classical in
        (g :: m).foldl (fun r x => if c x.idx ∈ fs.map c then r else false) r)
      refine ⟨b, ?_, ?_⟩
      · rw [List.foldlM_cons]
        exact h1
      · rw [h2, composed_foldl]
        simp only [List.mem_cons, forall_eq_or_imp, Prod.forall]
        tauto

theorem isComposed_error (fs : List ι) (ts : List (Mono ι × ℂ)) (h : ∃ t ∈ ts, t.1 = []) (r : Bool) :
    ts.foldlM (composedStep (fs.map c)) r = .error .value := by
  induction ts generalizing r with
  | nil => simp at h
  | cons t ts ih =>
    rw [List.foldlM_cons]
    obtain ⟨m, a⟩ := t
    cases m with
    | nil => rfl
    | cons g m =>
      obtain ⟨t', h1, h2⟩ := h
      rcases List.mem_cons.1 h1 with rfl | h3
      · cases h2
      · exact ih ⟨t', h3, h2⟩ _

/-! ## C122 -/

/-- C122 (orbitals): the list of operators made from `gf_struct` contains every orbital of every block once. -/
theorem C122_gf_struct {β : Type} [LinearOrder β] (gf : List (β × ℕ)) :
    (∀ b i, toLex (b, i) ∈ fundamentalOperators gf ↔ ∃ p ∈ gf, p.1 = b ∧ i < p.2) ∧
    ((gf.map Prod.fst).Nodup → (fundamentalOperators gf).Nodup) ∧
    (fundamentalOperators gf).length = (gf.map Prod.snd).sum := by
  have h0 : ∀ (l : List ℕ) (b : β) (acc : List (β ×ₗ ℕ)),
      l.foldl (fun acc i => acc ++ [toLex (b, i)]) acc = acc ++ l.map fun i => toLex (b, i) := by
    intro l b
    induction l with
    | nil => simp
    | cons i l ih => intro acc; rw [List.foldl_cons, ih]; simp
  have h1 : ∀ (l : List (β × ℕ)) (acc : List (β ×ₗ ℕ)),
      l.foldl (fun acc b => (List.range b.2).foldl (fun acc i => acc ++ [toLex (b.1, i)]) acc) acc
        = acc ++ l.flatMap fun b => (List.range b.2).map fun i => toLex (b.1, i) := by
    intro l
    induction l with
    | nil => simp
    | cons b l ih => intro acc; rw [List.foldl_cons, h0, ih]; simp
  have h2 : fundamentalOperators gf = gf.flatMap fun b => (List.range b.2).map fun i => toLex (b.1, i) := by
    rw [fundamentalOperators, h1, List.nil_append]
  refine ⟨fun b i => ?_, fun hnd => ?_, ?_⟩
  · rw [h2]
    simp only [List.mem_flatMap, List.mem_map, List.mem_range, EmbeddingLike.apply_eq_iff_eq, Prod.mk.injEq]
    constructor
    · rintro ⟨p, hp, j, hj, rfl, rfl⟩
      exact ⟨p, hp, rfl, hj⟩
    · rintro ⟨p, hp, rfl, hi⟩
      exact ⟨p, hp, i, hi, rfl, rfl⟩
  · rw [h2, List.nodup_flatMap]
    refine ⟨fun p _ => List.Nodup.map (fun i j e => ?_) List.nodup_range, ?_⟩
    · have := toLex.injective e
      exact (Prod.mk.injEq _ _ _ _ ▸ this).2
    · rw [List.Nodup, List.pairwise_map] at hnd
      refine hnd.imp fun {p q} hpq => ?_
      intro x hx hy
      obtain ⟨i, -, rfl⟩ := List.mem_map.1 hx
      obtain ⟨j, -, e⟩ := List.mem_map.1 hy
      have := toLex.injective e
      exact hpq ((Prod.mk.injEq _ _ _ _ ▸ this).1).symm
  · rw [h2, List.length_flatMap]
    simp

/-- C122 (check): without a constant term the check says whether every operator in the Hamiltonian belongs to the
given orbitals. -/
theorem C122_composed (fs : List ι) (x : Op ι) (ts : List (Mono ι × ℂ)) (hts : Enumerates ts x) (h0 : x [] = 0) :
    ∃ b, isComposed (fs.map c) ts = .ok b ∧ (b = true ↔ ∀ m ∈ x.support, ∀ g ∈ m, g.idx ∈ fs) := by
  obtain ⟨b, h1, h2⟩ := isComposed_ok fs ts (fun t ht e => by
    obtain ⟨m, a⟩ := t
    obtain ⟨ha, hm⟩ := (hts.2 m a).1 ht
    simp only at e
    subst e
    exact ha (hm.symm.trans h0)) true
  refine ⟨b, h1, h2.trans ?_⟩
  constructor
  · rintro ⟨-, h⟩ m hm
    exact h (m, x m) ((hts.2 m (x m)).2 ⟨Finsupp.mem_support_iff.1 hm, rfl⟩)
  · refine fun h => ⟨rfl, fun t ht => ?_⟩
    obtain ⟨m, a⟩ := t
    obtain ⟨ha, hm⟩ := (hts.2 m a).1 ht
    exact h m (Finsupp.mem_support_iff.2 (hm ▸ ha))

/-- C122 is violated by a constant term: whatever else is in the interaction, the solver cannot be made. -/
theorem C122_constant_violated (fs : List ι) (x : Op ι) (ts : List (Mono ι × ℂ)) (hts : Enumerates ts x)
    (h0 : x [] ≠ 0) : initInteraction fs (some ts) = .error .value := by
  have h : isComposed (fs.map c) ts = .error .value :=
    isComposed_error fs ts ⟨([], x []), (hts.2 _ _).2 ⟨h0, rfl⟩, rfl⟩ true
  simp only [initInteraction, h]

/-- The interaction accepted by the solver: the tensor exists exactly if there is no constant, all operators belong to
the orbitals, and terms with four operators are of the form `c^+ c^+ c c`. -/
theorem C122_accepts (fs : List ι) (hnd : fs.Nodup) (x : Op ι) (hx : Canonical x) (ts : List (Mono ι × ℂ))
    (hts : Enumerates ts x) :
    (∃ U, initInteraction fs (some ts) = .ok U) ↔
      x [] = 0 ∧ (∀ m ∈ x.support, ∀ g ∈ m, g.idx ∈ fs) ∧
      ∀ m ∈ x.support, m.length = 4 → m.map Gen.dag = [true, true, false, false] := by
  constructor
  · rintro ⟨U, hU⟩
    have h0 : x [] = 0 := by
      by_contra h
      rw [C122_constant_violated fs x ts hts h] at hU
      cases hU
    obtain ⟨b, h1, h2⟩ := C122_composed fs x ts hts h0
    simp only [initInteraction, h1] at hU
    cases b with
    | false => cases hU
    | true =>
      refine ⟨h0, h2.1 rfl, fun m hm h4 => ?_⟩
      by_contra hne
      have hq := (C33_refuses false fs hnd x hx ts hts).2 ⟨m, hm, h4, hne⟩
      have hr : getRpaTensor fs ts = .error .assertion := by
        unfold getRpaTensor; rw [hq]; rfl
      rw [hr] at hU
      cases hU
  · rintro ⟨h0, h1, h2⟩
    obtain ⟨b, h3, h4⟩ := C122_composed fs x ts hts h0
    obtain ⟨U, hU⟩ := C37_accepts fs hnd x hx ts hts h2
    refine ⟨U, ?_⟩
    simp only [initInteraction, h3, h4.2 h1, hU]

/-- The tensor of an accepted interaction is that of `get_rpa_tensor`. -/
theorem initInteraction_ok (fs : List ι) (ts : List (Mono ι × ℂ)) (U : T4 fs.length)
    (h : initInteraction fs (some ts) = .ok U) : getRpaTensor fs ts = .ok U := by
  simp only [initInteraction] at h
  cases hc : isComposed (fs.map c) ts with
  | error e => rw [hc] at h; cases h
  | ok b =>
    rw [hc] at h
    cases b with
    | false => cases h
    | true =>
      cases hr : getRpaTensor fs ts with
      | error e => rw [hr] at h; cases h
      | ok V => rw [hr] at h; dsimp only at h; rw [Except.ok.inj h]

/-- C122 (whole interaction), for operators with four elementary operators in every term: an accepted interaction is
represented completely by the tensor of the solver. Missing: terms with two, six or more operators, which are accepted
and ignored, see `C122_ignored_violated`. -/
theorem C122_whole_partial (fs : List ι) (hnd : fs.Nodup) (x : Op ι) (hx : Canonical x) (ts : List (Mono ι × ℂ))
    (hts : Enumerates ts x) (h4 : ∀ m ∈ x.support, m.length = 4) (U : T4 fs.length)
    (hU : initInteraction fs (some ts) = .ok U) {A : Type} [Ring A] [Algebra ℂ A] (e : Gen ι → A) (he : CAR e) :
    eval e x = (1 / 4 : ℂ) • ∑ a, ∑ b, ∑ c, ∑ d, U a b c d •
      (e ⟨true, fs.get b⟩ * e ⟨true, fs.get d⟩ * e ⟨false, fs.get a⟩ * e ⟨false, fs.get c⟩) := by
  classical
  obtain ⟨-, h1, h2⟩ := (C122_accepts fs hnd x hx ts hts).1 ⟨U, hU⟩
  rw [← (C37_rpa_tensor fs hnd x hx ts hts U (initInteraction_ok fs ts U hU)).2.2 e he]
  congr 1
  symm
  rw [Finsupp.filter_eq_self_iff]
  intro m hm
  have hm' := Finsupp.mem_support_iff.2 hm
  exact ⟨h2 m hm' (h4 m hm'), h1 m hm'⟩

/-- C122 (no interaction): leaving out the interaction is accepted for every `gf_struct` and is the same as passing the
operator zero, which has no terms; the mean field of every density matrix is zero. -/
theorem C122_no_interaction (fs : List ι) :
    ∃ U : T4 fs.length, initInteraction fs (none : Option (List (Mono ι × ℂ))) = .ok U ∧
      initInteraction fs (some ([] : List (Mono ι × ℂ))) = .ok U ∧
      ∀ (rho : Matrix (Fin fs.length) (Fin fs.length) ℂ) a b, ∑ c, ∑ d, U a b c d * rho c d = 0 := by
  refine ⟨fun _ _ _ _ => 0, rfl, ?_, fun rho a b => by simp⟩
  have h1 : isComposed (fs.map c) ([] : List (Mono ι × ℂ)) = .ok true := rfl
  have h2 : getRpaTensor fs ([] : List (Mono ι × ℂ)) = .ok fun _ _ _ _ => 0 := by
    have : getRpaTensor fs ([] : List (Mono ι × ℂ))
        = .ok fun a b c d => 4 * permSym (fun _ _ _ _ => 0) b d a c := rfl
    rw [this]
    congr 1
    funext a b c d
    simp [permSym_eq]
  simp only [initInteraction, h1, h2]

/-- C122 (whole interaction) is violated: adding any operator without quartic and constant terms on the same orbitals
to an accepted interaction, for example a level shift or a pairing field, is accepted and changes nothing. -/
theorem C122_ignored_violated (fs : List ι) (hnd : fs.Nodup) (x y : Op ι) (hx : Canonical x) (hy : Canonical y)
    (hy4 : ∀ m ∈ y.support, m.length ≠ 4 ∧ m ≠ [] ∧ ∀ g ∈ m, g.idx ∈ fs)
    (ts ts' : List (Mono ι × ℂ)) (hts : Enumerates ts x) (hts' : Enumerates ts' (x + y)) (U : T4 fs.length)
    (hU : initInteraction fs (some ts) = .ok U) : initInteraction fs (some ts') = .ok U := by
  obtain ⟨h0, h1, h2⟩ := (C122_accepts fs hnd x hx ts hts).1 ⟨U, hU⟩
  have hy0 : ∀ m, m.length = 4 ∨ m = [] → y m = 0 := by
    intro m hm
    by_contra h
    obtain ⟨a1, a2, -⟩ := hy4 m (Finsupp.mem_support_iff.2 h)
    exact hm.elim a1 a2
  have hsup : ∀ m ∈ (x + y).support, m ∈ x.support ∨ m ∈ y.support := by
    intro m hm
    by_contra h
    push Not at h
    rw [Finsupp.mem_support_iff, Finsupp.add_apply, Finsupp.notMem_support_iff.1 h.1,
      Finsupp.notMem_support_iff.1 h.2, add_zero] at hm
    exact hm rfl
  have hxy : Canonical (x + y) := fun m hm => (hsup m hm).elim (hx m) (hy m)
  have hacc : ∃ V, initInteraction fs (some ts') = .ok V := by
    refine (C122_accepts fs hnd (x + y) hxy ts' hts').2 ⟨?_, fun m hm => ?_, fun m hm h4 => ?_⟩
    · rw [Finsupp.add_apply, h0, hy0 [] (Or.inr rfl), add_zero]
    · exact (hsup m hm).elim (h1 m) fun h => (hy4 m h).2.2
    · exact (hsup m hm).elim (fun h => h2 m h h4) fun h => absurd h4 (hy4 m h).1
  obtain ⟨V, hV⟩ := hacc
  rw [hV]
  have e1 := initInteraction_ok fs ts U hU
  have e2 := initInteraction_ok fs ts' V hV
  have good : ∀ z : Op ι, (∀ m ∈ z.support, m.length = 4 → m.map Gen.dag = [true, true, false, false]) →
      ∀ m ∈ z.support, GoodQuartic m := by
    intro z hz m hm g1 g2 g3 g4 e
    have := hz m hm (by rw [e]; rfl)
    rw [e] at this
    simpa using this
  obtain ⟨-, -, h2'⟩ := (C122_accepts fs hnd (x + y) hxy ts' hts').1 ⟨V, hV⟩
  have q1 := quarticTensor_ok false fs hnd x hx ts hts (good x h2)
  have q2 := quarticTensor_ok false fs hnd (x + y) hxy ts' hts' (good (x + y) h2')
  have hq : quartSpec false fs (⇑(x + y : Op ι)) = quartSpec false fs x := by
    funext i j k l
    change (x + y) (K4 fs i j k l) = x (K4 fs i j k l)
    rw [Finsupp.add_apply, hy0 (K4 fs i j k l) (Or.inl rfl), add_zero]
  unfold getRpaTensor at e1 e2
  rw [q1] at e1
  rw [q2, hq] at e2
  exact congrArg Except.ok (Except.ok.inj (e2.symm.trans e1))

/-! ## Fundamental operators with prefactors -/

/-- C122 (index map): annihilation operators are mapped to their indices, whatever their prefactors are. -/
theorem C122_index_map (l : List (ι × ℂ)) :
    operatorIndexMap (l.map fun p => [(([⟨false, p.1⟩] : Mono ι), p.2)]) = .ok (l.map Prod.fst) := by
  have h : ∀ (l : List (ι × ℂ)) (acc : List ι),
      (l.map fun p => [(([⟨false, p.1⟩] : Mono ι), p.2)]).foldlM (fun acc op => do
        let g ← opSerialize op
        if g.dag = false then return acc ++ [g.idx] else throw PyErr.assertion) acc = .ok (acc ++ l.map Prod.fst) := by
    intro l
    induction l with
    | nil => intro acc; simp; rfl
    | cons p l ih =>
      intro acc
      rw [List.map_cons, List.foldlM_cons]
      refine (ih _).trans ?_
      simp
  exact (h l []).trans (by rw [List.nil_append])

/-- C122 (index map with daggers): single operators are mapped to themselves without their prefactors, and anything else
is refused. -/
theorem C122_index_map_dag (l : List (Gen ι × ℂ)) :
    operatorIndexMapDag (l.map fun p => [(([p.1] : Mono ι), p.2)]) = .ok (l.map Prod.fst) ∧
    ∀ (ops : List (List (Mono ι × ℂ))), (∃ ts ∈ ops, ¬ ∃ g a, ts = [([g], a)]) →
      operatorIndexMapDag ops = .error .assertion := by
  constructor
  · have h : ∀ (l : List (Gen ι × ℂ)) (acc : List (Gen ι)),
        (l.map fun p => [(([p.1] : Mono ι), p.2)]).foldlM (fun acc op => do
          let g ← opSerialize op
          return acc ++ [g]) acc = (.ok (acc ++ l.map Prod.fst) : Except PyErr (List (Gen ι))) := by
      intro l
      induction l with
      | nil => intro acc; simp; rfl
      | cons p l ih =>
        intro acc
        rw [List.map_cons, List.foldlM_cons]
        refine (ih _).trans ?_
        simp
    exact (h l []).trans (by rw [List.nil_append])
  · have h' : ∀ (ops : List (List (Mono ι × ℂ))) (_ : ∃ ts ∈ ops, ¬ ∃ g a, ts = [([g], a)]) (acc : List (Gen ι)),
        ops.foldlM (fun acc op => do
          let g ← opSerialize op
          return acc ++ [g]) acc = (.error .assertion : Except PyErr (List (Gen ι))) := by
      intro ops
      induction ops with
      | nil => rintro ⟨_, h, _⟩; simp at h
      | cons ts ops ih =>
        intro h acc
        rw [List.foldlM_cons]
        by_cases ht : ∃ g a, ts = [([g], a)]
        · obtain ⟨g, a, rfl⟩ := ht
          refine ih ?_ _
          obtain ⟨t', h1, h2⟩ := h
          rcases List.mem_cons.1 h1 with rfl | h3
          · exact absurd ⟨g, a, rfl⟩ h2
          · exact ⟨t', h3, h2⟩
        · match ts with
          | [] => rfl
          | _ :: _ :: _ => rfl
          | [([], a)] => rfl
          | [(_ :: _ :: _, a)] => simp [opSerialize, opIsFundamental]; rfl
          | [([g], a)] => exact absurd ⟨g, a, rfl⟩ ht
    exact fun ops h => h' ops h []

/-- C122 (index map): a list that contains anything but single annihilation operators is refused. -/
theorem C122_index_map_refuses (ops : List (List (Mono ι × ℂ)))
    (h : ∃ ts ∈ ops, ¬ ∃ i a, ts = [([⟨false, i⟩], a)]) : operatorIndexMap ops = .error .assertion := by
  have h' : ∀ (ops : List (List (Mono ι × ℂ))) (_ : ∃ ts ∈ ops, ¬ ∃ i a, ts = [([⟨false, i⟩], a)]) (acc : List ι),
      ops.foldlM (fun acc op => do
        let g ← opSerialize op
        if g.dag = false then return acc ++ [g.idx] else throw PyErr.assertion) acc = .error .assertion := by
    intro ops
    induction ops with
    | nil => rintro ⟨_, h, _⟩; simp at h
    | cons ts ops ih =>
      intro h acc
      rw [List.foldlM_cons]
      by_cases ht : ∃ i a, ts = [([⟨false, i⟩], a)]
      · obtain ⟨i, a, rfl⟩ := ht
        refine ih ?_ _
        obtain ⟨t', h1, h2⟩ := h
        rcases List.mem_cons.1 h1 with rfl | h3
        · exact absurd ⟨i, a, rfl⟩ h2
        · exact ⟨t', h3, h2⟩
      · match ts with
        | [] => rfl
        | _ :: _ :: _ => rfl
        | [([], a)] => rfl
        | [(_ :: _ :: _, a)] => simp [opSerialize, opIsFundamental]; rfl
        | [([⟨true, i⟩], a)] => rfl
        | [([⟨false, i⟩], a)] => exact absurd ⟨i, a, rfl⟩ ht
  exact h' ops h []

theorem mul_smul' (a : ℂ) (x y : Op ι) : mul x (a • y) = a • mul x y := by
  apply ext_car _ _ (mul_canon _ _) (Submodule.smul_mem _ _ (mul_canon _ _))
  intro A _ _ e he
  rw [evalL_mul he, map_smul, map_smul, evalL_mul he, mul_smul_comm]

/-- The double loop over annihilation operators with prefactors. -/
theorem quadLoopOps_scaled (fs : List ι) (a : Fin fs.length → ℂ) (h : Fin fs.length → Fin fs.length → ℂ) :
    quadLoopOps (fun i => a i • c (fs.get i)) h = quadLoop fs fun i j => starRingEnd ℂ (a i) * a j * h i j := by
  unfold quadLoopOps quadLoop
  have : ∀ i j, mul (h i j • dagger (a i • c (fs.get i))) (a j • c (fs.get j))
      = mul ((starRingEnd ℂ (a i) * a j * h i j) • dagger (c (fs.get i))) (c (fs.get j)) := by
    intro i j
    rw [dagger_smul, mul_smul', smul_mul', smul_mul', smul_mul', smul_smul, smul_smul]
    congr 1
    ring
  simp only [this]

/-- The double loop over annihilation operators is that of the model of C32. -/
theorem quadLoopOps_c (fs : List ι) (h : Fin fs.length → Fin fs.length → ℂ) :
    quadLoopOps (fun i => c (fs.get i)) h = quadLoop fs h := by
  have := quadLoopOps_scaled fs (fun _ => 1) h
  simpa using this

/-- C122 (prefactors) is violated: operators with prefactors `a` pass the check for fundamental operators and are mapped
to their indices, but the matrix read back from `get_quadratic_operator` is `conj(a_i) h_ij a_j`. -/
theorem C122_scaled_violated (fs : List ι) (hnd : fs.Nodup) (a : Fin fs.length → ℂ)
    (h : Fin fs.length → Fin fs.length → ℂ) (ts : List (Mono ι × ℂ))
    (hts : Enumerates ts (quadLoopOps (fun i => a i • c (fs.get i)) h)) :
    operatorIndexMap ((List.finRange fs.length).map fun i => [(([⟨false, fs.get i⟩] : Mono ι), a i)]) = .ok fs ∧
    quadraticMatrixFromOperator fs ts = .ok fun i j => starRingEnd ℂ (a i) * a j * h i j := by
  constructor
  · have := C122_index_map ((List.finRange fs.length).map fun i => (fs.get i, a i))
    rw [List.map_map, List.map_map] at this
    refine this.trans (congrArg Except.ok ?_)
    exact List.map_get_finRange fs
  · rw [quadLoopOps_scaled] at hts
    rw [quadraticMatrix_ok fs hnd _ ts hts]
    · congr 1
      funext i j
      exact quadLoop_apply fs hnd _ i j
    · intro m hm g1 g2 he
      by_contra hc
      rw [Finsupp.mem_support_iff] at hm
      apply hm
      apply quadLoop_apply_of_ne
      rintro i j rfl
      simp only [K2, List.cons.injEq, and_true] at he
      obtain ⟨rfl, rfl⟩ := he
      exact hc ⟨rfl, rfl⟩

/-! ## Examples -/

/-- one orbital with prefactor two: the matrix `1` is read back as `4` -/
example (ts : List (Mono (Fin 1) × ℂ))
    (hts : Enumerates ts (quadLoopOps (fun i => (2 : ℂ) • c ([(0 : Fin 1)].get i)) fun _ _ => 1)) :
    quadraticMatrixFromOperator [(0 : Fin 1)] ts = .ok fun _ _ => 4 := by
  rw [(C122_scaled_violated [(0 : Fin 1)] (by simp) (fun _ => 2) (fun _ _ => 1) ts hts).2]
  congr 1
  funext i j
  simp only [Complex.conj_ofNat]
  norm_num

/-- the Hubbard interaction `U n_0 n_1 = U c^+_0 c^+_1 c_1 c_0` -/
def hubbardMono : Mono (Fin 2) := [⟨true, 0⟩, ⟨true, 1⟩, ⟨false, 1⟩, ⟨false, 0⟩]

/-- a level shift `c^+_0 c_0` -/
def levelMono : Mono (Fin 2) := [⟨true, 0⟩, ⟨false, 0⟩]

theorem enumerates_single {m : Mono ι} {a : ℂ} (ha : a ≠ 0) : Enumerates [(m, a)] (Finsupp.single m a) := by
  refine ⟨by simp, fun m' a' => ?_⟩
  simp only [List.mem_singleton, Prod.mk.injEq]
  constructor
  · rintro ⟨rfl, rfl⟩
    exact ⟨ha, by simp⟩
  · rintro ⟨h1, h2⟩
    by_cases h : m' = m
    · subst h
      simpa using h2.symm
    · rw [Finsupp.single_apply, if_neg (Ne.symm h)] at h2
      exact absurd h2.symm h1

theorem canonical_single {m : Mono ι} {a : ℂ} (hm : m.Pairwise (· < ·)) : Canonical (Finsupp.single m a) := by
  intro m' h
  rw [Finset.mem_singleton.1 (Finsupp.support_single_subset h)]
  exact hm

/-- `U (n_0 - 1/2) (n_1 - 1/2)`, written out, is refused although every operator in it belongs to the orbitals -/
example (U : ℂ) (hU : U ≠ 0) (x : Op (Fin 2)) (ts : List (Mono (Fin 2) × ℂ)) (hts : Enumerates ts x)
    (hx : x = Finsupp.single hubbardMono U + Finsupp.single levelMono (-U / 2)
      + Finsupp.single [⟨true, 1⟩, ⟨false, 1⟩] (-U / 2) + Finsupp.single [] (U / 4)) :
    initInteraction [0, 1] (some ts) = .error .value := by
  refine C122_constant_violated _ x ts hts ?_
  rw [hx]
  simp [hubbardMono, levelMono, hU]

theorem hubbard_accepted (U : ℂ) (hU : U ≠ 0) : ∃ V, initInteraction [(0 : Fin 2), 1] (some [(hubbardMono, U)]) = .ok V := by
  have hm : ∀ m ∈ (Finsupp.single hubbardMono U : Op (Fin 2)).support, m = hubbardMono := fun m h =>
    Finset.mem_singleton.1 (Finsupp.support_single_subset h)
  refine (C122_accepts [(0 : Fin 2), 1] (by simp) _ (canonical_single (a := U) ?_) _ (enumerates_single hU)).2
    ⟨by simp [hubbardMono], fun m h g hg => ?_, fun m h _ => ?_⟩
  · decide
  · have := g.idx.isLt
    simp only [List.mem_cons, List.not_mem_nil, or_false]
    omega
  · rw [hm m h]
    rfl

/-- the hypotheses of `C122_whole_partial` and `C122_ignored_violated`: a Hubbard interaction, and the same with a level
shift, which has the same tensor -/
example (U e : ℂ) (hU : U ≠ 0) (ts : List (Mono (Fin 2) × ℂ))
    (hts : Enumerates ts (Finsupp.single hubbardMono U + Finsupp.single levelMono e)) :
    ∃ V, initInteraction [(0 : Fin 2), 1] (some [(hubbardMono, U)]) = .ok V ∧
      initInteraction [(0 : Fin 2), 1] (some ts) = .ok V ∧
      ∀ {A : Type} [Ring A] [Algebra ℂ A] (g : Gen (Fin 2) → A), CAR g →
        eval g (Finsupp.single hubbardMono U) = (1 / 4 : ℂ) • ∑ a, ∑ b, ∑ c, ∑ d, V a b c d •
          (g ⟨true, [(0 : Fin 2), 1].get b⟩ * g ⟨true, [(0 : Fin 2), 1].get d⟩ *
            g ⟨false, [(0 : Fin 2), 1].get a⟩ * g ⟨false, [(0 : Fin 2), 1].get c⟩) := by
  obtain ⟨V, hV⟩ := hubbard_accepted U hU
  refine ⟨V, hV, ?_, fun {A} _ _ g hg => ?_⟩
  · refine C122_ignored_violated [(0 : Fin 2), 1] (by simp) _ _ (canonical_single (by decide)) (canonical_single (by decide))
      (fun m h => ?_) _ ts (enumerates_single hU) hts V hV
    rw [Finset.mem_singleton.1 (Finsupp.support_single_subset h)]
    decide
  · refine C122_whole_partial [(0 : Fin 2), 1] (by simp) _ (canonical_single (by decide)) _ (enumerates_single hU)
      (fun m h => ?_) V hV g hg
    rw [Finset.mem_singleton.1 (Finsupp.support_single_subset h)]
    rfl

end Verif.Operators
