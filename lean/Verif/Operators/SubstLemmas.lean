import Verif.Operators.Lemmas
import Mathlib.Data.Matrix.Mul
import Mathlib.Algebra.Module.BigOperators
import Mathlib.Algebra.Group.Submonoid.BigOperators
import Mathlib.LinearAlgebra.Matrix.ConjTranspose

/-! # Lemmas for the operator substitutions -/

set_option linter.unusedSectionVars false

noncomputable section

namespace Verif.Operators

open Finsupp hiding some

variable {ι : Type} [LinearOrder ι]

/-- The factor loop for one monomial. -/
def substMono (s : Gen ι → Op ι) (m : Mono ι) : Op ι := m.foldl (fun f g => mul f (s g)) one

/-- The term loop as a linear map. -/
def substL (s : Gen ι → Op ι) : Op ι →ₗ[ℂ] Op ι := Finsupp.linearCombination ℂ (substMono s)

theorem substLoop_eq (s : Gen ι → Op ι) (x : Op ι) (ts : List (Mono ι × ℂ))
    (h : Enumerates ts x) : substLoop s ts = substL s x := by
  unfold substLoop
  rw [foldl_add_eq, zero_add]
  exact h.sum (substMono s)

theorem substMono_canon (s : Gen ι → Op ι) (m : Mono ι) : substMono s m ∈ canon ι := by
  unfold substMono
  rcases List.eq_nil_or_concat m with rfl | ⟨m', g, rfl⟩
  · exact one_canon
  · rw [List.concat_eq_append, List.foldl_append]
    exact mul_canon _ _

theorem substL_canon (s : Gen ι → Op ι) (x : Op ι) : substL s x ∈ canon ι := by
  unfold substL
  rw [Finsupp.linearCombination_apply]
  exact Submodule.sum_mem _ fun m _ => Submodule.smul_mem _ _ (substMono_canon s m)

section

variable {A : Type*} [Ring A] [Algebra ℂ A]

theorem evalL_substMono {e : Gen ι → A} (he : CAR e) (s : Gen ι → Op ι) (m : Mono ι) :
    evalL e (substMono s m) = (m.map fun g => evalL e (s g)).prod := by
  have key : ∀ (m : Mono ι) (f : Op ι), evalL e (m.foldl (fun f g => mul f (s g)) f)
      = evalL e f * (m.map fun g => evalL e (s g)).prod := by
    intro m
    induction m with
    | nil => intro f; simp
    | cons g m ih =>
      intro f
      rw [List.foldl_cons, ih, evalL_mul he, List.map_cons, List.prod_cons, mul_assoc]
  unfold substMono
  rw [key, evalL_one, one_mul]

theorem evalL_substL {e : Gen ι → A} (he : CAR e) (s : Gen ι → Op ι) (x : Op ι) :
    evalL e (substL s x) = evalL (fun g => evalL e (s g)) x := by
  refine linear_ext_on (s := Set.univ) ((evalL e) ∘ₗ substL s)
    (evalL fun g => evalL e (s g)) ?_ x (by simp)
  intro m _
  simp [substL, evalL_single, evalL_substMono he]

end

/-! ### Linear substitutions -/

/-- All ways of choosing one replacement per factor. -/
def expand (s : Gen ι → List (ℂ × Gen ι)) : Mono ι → List (ℂ × Mono ι)
  | [] => [(1, [])]
  | g :: m => (s g).flatMap fun p => (expand s m).map fun q => (p.1 * q.1, p.2 :: q.2)

/-- A linear combination of elementary operators. -/
def linOp (L : List (ℂ × Gen ι)) : Op ι := (L.map fun p => p.1 • elem p.2).sum

theorem sum_flatMap {κ μ M : Type*} [AddCommMonoid M] (L : List κ) (f : κ → List μ) (g : μ → M) :
    ((L.flatMap f).map g).sum = (L.map fun p => ((f p).map g).sum).sum := by
  induction L with
  | nil => simp
  | cons a L ih => simp [ih]

section

variable {A : Type*} [Ring A] [Algebra ℂ A]

theorem list_sum_mul (L : List A) (b : A) : L.sum * b = (L.map fun a => a * b).sum := by
  induction L with
  | nil => simp
  | cons a L ih => simp [add_mul, ih]

theorem mul_list_sum (L : List A) (b : A) : b * L.sum = (L.map fun a => b * a).sum := by
  induction L with
  | nil => simp
  | cons a L ih => simp [mul_add, ih]

theorem expand_eval (s : Gen ι → List (ℂ × Gen ι)) (e : Gen ι → A) (m : Mono ι) :
    ((expand s m).map fun q => q.1 • (q.2.map e).prod).sum
      = (m.map fun g => ((s g).map fun p => p.1 • e p.2).sum).prod := by
  induction m with
  | nil => simp [expand]
  | cons g m ih =>
    rw [expand, sum_flatMap, List.map_cons, List.prod_cons, ← ih, list_sum_mul, List.map_map]
    congr 1
    apply List.map_congr_left
    intro p _
    rw [Function.comp_apply, mul_list_sum, List.map_map, List.map_map]
    congr 1
    apply List.map_congr_left
    intro q _
    simp only [Function.comp_apply, List.map_cons, List.prod_cons]
    rw [smul_mul_smul_comm]

theorem evalL_linOp (e : Gen ι → A) (L : List (ℂ × Gen ι)) :
    evalL e (linOp L) = (L.map fun p => p.1 • e p.2).sum := by
  unfold linOp
  rw [map_list_sum, List.map_map]
  congr 1
  apply List.map_congr_left
  intro p _
  simp [evalL_elem]

end

theorem substMono_linOp (s : Gen ι → List (ℂ × Gen ι)) (m : Mono ι) :
    substMono (fun g => linOp (s g)) m = ((expand s m).map fun q => q.1 • nf q.2).sum := by
  apply ext_car _ _ (substMono_canon _ _)
  · apply list_sum_mem
    intro x hx
    obtain ⟨q, _, rfl⟩ := List.mem_map.mp hx
    exact Submodule.smul_mem _ _ (nf_canon _)
  · intro A _ _ e he
    rw [evalL_substMono he, map_list_sum, List.map_map]
    simp only [evalL_linOp]
    rw [← expand_eval]
    congr 1
    apply List.map_congr_left
    intro q _
    simp [evalL_nf he]

/-- Evaluating a linear substitution with elementary operators that obey only
the relations which are used. -/
theorem evalL_substL_of {A : Type*} [Ring A] [Algebra ℂ A] {e : Gen ι → A}
    (s : Gen ι → List (ℂ × Gen ι)) (x : Op ι)
    (h : ∀ m ∈ x.support, ∀ q ∈ expand s m, q.2.Pairwise (Reorder e)) :
    evalL e (substL (fun g => linOp (s g)) x)
      = evalL (fun g => ((s g).map fun p => p.1 • e p.2).sum) x := by
  have hm : ∀ m ∈ x.support, evalL e (substMono (fun g => linOp (s g)) m)
      = (m.map fun g => ((s g).map fun p => p.1 • e p.2).sum).prod := by
    intro m hm
    rw [substMono_linOp, map_list_sum, List.map_map, ← expand_eval]
    congr 1
    apply List.map_congr_left
    intro q hq
    simp [evalL_nf_of q.2 (h m hm q hq)]
  rw [substL, Finsupp.linearCombination_apply, Finsupp.sum, map_sum,
    ← eval_eq (fun g => ((s g).map fun p => p.1 • e p.2).sum) x, eval, Finsupp.sum]
  refine Finset.sum_congr rfl fun m hm' => ?_
  rw [map_smul]
  congr 1
  exact hm m hm'

theorem expand_forall₂ (s : Gen ι → List (ℂ × Gen ι)) (R : Gen ι → Gen ι → Prop)
    (hR : ∀ g, ∀ p ∈ s g, R g p.2) (m : Mono ι) :
    ∀ q ∈ expand s m, List.Forall₂ R m q.2 := by
  induction m with
  | nil => intro q hq; simp [expand] at hq; simp [hq]
  | cons g m ih =>
    intro q hq
    simp only [expand, List.mem_flatMap, List.mem_map] at hq
    obtain ⟨p, hp, q', hq', rfl⟩ := hq
    exact List.Forall₂.cons (hR g p hp) (ih q' hq')

/-- A pairwise relation carried along an elementwise relation. -/
theorem pairwise_of_forall₂ {R : Gen ι → Gen ι → Prop} {S T : Gen ι → Gen ι → Prop}
    (hST : ∀ a b a' b', S a b → R a a' → R b b' → T a' b') {l l' : Mono ι}
    (h : List.Forall₂ R l l') (hl : l.Pairwise S) : l'.Pairwise T := by
  induction h with
  | nil => exact List.Pairwise.nil
  | @cons a a' l l' hab hrest ih =>
    rw [List.pairwise_cons] at hl ⊢
    refine ⟨?_, ih hl.2⟩
    intro b' hb'
    have : ∃ b ∈ l, R b b' := by
      clear ih hl
      induction hrest with
      | nil => simp at hb'
      | @cons c c' r r' hcc _ ih =>
        rcases List.mem_cons.mp hb' with rfl | hb'
        · exact ⟨c, by simp, hcc⟩
        · obtain ⟨b, hb, hR⟩ := ih hb'
          exact ⟨b, by simp [hb], hR⟩
    obtain ⟨b, hb, hR⟩ := this
    exact hST a b a' b' (hl.1 b hb) hab hR

theorem dagLeft_of_lt {g h : Gen ι} (hlt : g < h) : DagLeft g h := fun hh => dag_lt_of_lt hlt hh

/-! ### The single particle transform -/

/-- The replacement list of an elementary operator. -/
def transList (fs : List ι) (U : Matrix (Fin fs.length) (Fin fs.length) ℂ) (g : Gen ι) :
    List (ℂ × Gen ι) :=
  match lookup fs g.idx with
  | none => [(1, g)]
  | some k => (List.finRange fs.length).map fun l =>
      (if g.dag then starRingEnd ℂ (U k l) else U k l, ⟨g.dag, fs.get l⟩)

theorem transGen_eq (fs : List ι) (U : Matrix (Fin fs.length) (Fin fs.length) ℂ) (g : Gen ι) :
    transGen fs U g = linOp (transList fs U g) := by
  unfold transGen transList cTransf
  cases h : lookup fs g.idx with
  | none =>
    rw [if_neg (lookup_none fs _ h)]
    simp [linOp]
  | some k =>
    have hm : g.idx ∈ fs := by rw [← lookup_some fs _ k h]; exact List.get_mem fs k
    rw [if_pos hm]
    simp only
    rw [foldl_finRange_add, zero_add]
    obtain ⟨d, t⟩ := g
    cases d with
    | true =>
      simp only [if_true, dagger_sum, dagger_smul, dagger_c, linOp, List.map_map]
      rw [Fin.sum_univ_def]
      rfl
    | false =>
      simp only [Bool.false_eq_true, if_false, linOp, List.map_map]
      rw [Fin.sum_univ_def]
      rfl

/-- The substituted elementary operators. -/
def substE {A : Type*} [Ring A] [Algebra ℂ A] (fs : List ι)
    (U : Matrix (Fin fs.length) (Fin fs.length) ℂ) (e : Gen ι → A) (g : Gen ι) : A :=
  match lookup fs g.idx with
  | none => e g
  | some k => ∑ l, (if g.dag then starRingEnd ℂ (U k l) else U k l) • e ⟨g.dag, fs.get l⟩

section

variable {A : Type*} [Ring A] [Algebra ℂ A]

theorem transList_sum (fs : List ι) (U : Matrix (Fin fs.length) (Fin fs.length) ℂ)
    (e : Gen ι → A) (g : Gen ι) :
    ((transList fs U g).map fun p => p.1 • e p.2).sum = substE fs U e g := by
  unfold transList substE
  cases h : lookup fs g.idx with
  | none => simp
  | some k =>
    simp only [List.map_map]
    rw [Fin.sum_univ_def]
    rfl

theorem evalL_transGen (fs : List ι) (U : Matrix (Fin fs.length) (Fin fs.length) ℂ)
    (e : Gen ι → A) (g : Gen ι) : evalL e (transGen fs U g) = substE fs U e g := by
  rw [transGen_eq, evalL_linOp, transList_sum]

theorem substE_get (fs : List ι) (hnd : fs.Nodup) (U : Matrix (Fin fs.length) (Fin fs.length) ℂ)
    (e : Gen ι → A) (d : Bool) (k : Fin fs.length) :
    substE fs U e ⟨d, fs.get k⟩
      = ∑ l, (if d then starRingEnd ℂ (U k l) else U k l) • e ⟨d, fs.get l⟩ := by
  unfold substE
  simp only [lookup_get fs hnd k]

theorem substE_not_mem (fs : List ι) (U : Matrix (Fin fs.length) (Fin fs.length) ℂ)
    (e : Gen ι → A) (g : Gen ι) (h : g.idx ∉ fs) : substE fs U e g = e g := by
  unfold substE
  cases hl : lookup fs g.idx with
  | none => rfl
  | some k => exact absurd (lookup_some fs _ k hl ▸ List.get_mem fs k) h

theorem substE_comp (fs : List ι) (hnd : fs.Nodup)
    (U V : Matrix (Fin fs.length) (Fin fs.length) ℂ) (e : Gen ι → A) :
    substE fs U (substE fs V e) = substE fs (U * V) e := by
  funext g
  cases h : lookup fs g.idx with
  | none =>
    have := lookup_none fs _ h
    rw [substE_not_mem _ _ _ _ this, substE_not_mem _ _ _ _ this, substE_not_mem _ _ _ _ this]
  | some k =>
    obtain ⟨d, t⟩ := g
    have ht := lookup_some fs _ k h
    simp only at ht
    subst ht
    rw [substE_get fs hnd, substE_get fs hnd]
    simp only [substE_get fs hnd, Finset.smul_sum, smul_smul]
    rw [Finset.sum_comm]
    refine Finset.sum_congr rfl fun l _ => ?_
    rw [← Finset.sum_smul]
    congr 1
    cases d <;> simp [Matrix.mul_apply]

theorem substE_one (fs : List ι) (hnd : fs.Nodup) (e : Gen ι → A) :
    substE fs (1 : Matrix (Fin fs.length) (Fin fs.length) ℂ) e = e := by
  funext g
  cases h : lookup fs g.idx with
  | none => rw [substE_not_mem _ _ _ _ (lookup_none fs _ h)]
  | some k =>
    obtain ⟨d, t⟩ := g
    have ht := lookup_some fs _ k h
    simp only at ht
    subst ht
    rw [substE_get fs hnd, Finset.sum_eq_single k]
    · cases d <;> simp
    · intro l _ hl
      cases d <;> simp [Matrix.one_apply_ne hl.symm]
    · simp

/-- The anticommutator of substituted operators. -/
theorem anti_sum {κ μ : Type*} [Fintype κ] [Fintype μ] (a : κ → ℂ) (b : μ → ℂ) (f : κ → A)
    (g : μ → A) :
    (∑ i, a i • f i) * (∑ j, b j • g j) + (∑ j, b j • g j) * (∑ i, a i • f i)
      = ∑ i, ∑ j, (a i * b j) • (f i * g j + g j * f i) := by
  simp only [Finset.sum_mul_sum, smul_add, Finset.sum_add_distrib, smul_mul_smul_comm]
  congr 1
  rw [Finset.sum_comm]
  refine Finset.sum_congr rfl fun i _ => Finset.sum_congr rfl fun j _ => ?_
  rw [mul_comm (b j)]

/-- A family of coefficients describing `substE`. -/
theorem substE_form (fs : List ι) (hnd : fs.Nodup)
    (U : Matrix (Fin fs.length) (Fin fs.length) ℂ) (g : Gen ι) :
    ∃ (n : ℕ) (a : Fin n → ℂ) (t : Fin n → ι),
      ∀ e : Gen ι → A, substE fs U e g = ∑ l, a l • e ⟨g.dag, t l⟩ := by
  cases h : lookup fs g.idx with
  | none =>
    refine ⟨1, fun _ => 1, fun _ => g.idx, fun e => ?_⟩
    rw [substE_not_mem _ _ _ _ (lookup_none fs _ h)]
    simp
  | some k =>
    obtain ⟨d, t⟩ := g
    have ht := lookup_some fs _ k h
    simp only at ht
    subst ht
    exact ⟨fs.length, _, fun l => fs.get l, fun e => substE_get fs hnd U e d k⟩

theorem HalfCAR.substE {e : Gen ι → A} (he : HalfCAR e) (fs : List ι) (hnd : fs.Nodup)
    (U : Matrix (Fin fs.length) (Fin fs.length) ℂ) : HalfCAR (substE fs U e) := by
  intro g h hd
  obtain ⟨n, a, t, ha⟩ := substE_form (A := A) fs hnd U g
  obtain ⟨n', b, t', hb⟩ := substE_form (A := A) fs hnd U h
  rw [ha, hb, anti_sum]
  refine Finset.sum_eq_zero fun i _ => Finset.sum_eq_zero fun j _ => ?_
  rw [he _ _ (by simpa using hd), smul_zero]

theorem CAR.half {e : Gen ι → A} (he : CAR e) : HalfCAR e := by
  intro g h hd
  rw [he g h, contraction, if_neg (by simp [hd]), zero_smul]

theorem evalL_transL (fs : List ι)
    (U : Matrix (Fin fs.length) (Fin fs.length) ℂ) {e : Gen ι → A} (he : HalfCAR e) (x : Op ι)
    (hx : Canonical x) :
    evalL e (substL (transGen fs U) x) = evalL (substE fs U e) x := by
  have h1 : transGen fs U = fun g => linOp (transList fs U g) := funext (transGen_eq fs U)
  rw [h1, evalL_substL_of (transList fs U) x]
  · have : (fun g => ((transList fs U g).map fun p => p.1 • e p.2).sum) = Operators.substE fs U e :=
      funext (transList_sum fs U e)
    rw [this]
  · intro m hm q hq
    have hf := expand_forall₂ (transList fs U) (fun g g' => g.dag = g'.dag) ?_ m q hq
    · refine pairwise_of_forall₂ (S := fun a b => a < b) ?_ hf (hx m hm)
      intro a b a' b' hab ha hb
      apply he.reorder
      intro hb'
      rw [← ha]
      exact dagLeft_of_lt hab (hb ▸ hb')
    · intro g p hp
      unfold transList at hp
      cases hl : lookup fs g.idx with
      | none => rw [hl] at hp; simp at hp; rw [hp]
      | some k =>
        rw [hl] at hp
        simp only [List.mem_map] at hp
        obtain ⟨l, _, rfl⟩ := hp
        rfl

/-- Mixed anticommutators after the substitution. -/
theorem substE_mixed (fs : List ι) (hnd : fs.Nodup)
    (U : Matrix (Fin fs.length) (Fin fs.length) ℂ) {e : Gen ι → A} (he : CAR e)
    (k l : Fin fs.length) :
    substE fs U e ⟨false, fs.get k⟩ * substE fs U e ⟨true, fs.get l⟩
      + substE fs U e ⟨true, fs.get l⟩ * substE fs U e ⟨false, fs.get k⟩
      = ((U * U.conjTranspose) k l) • (1 : A) := by
  rw [substE_get fs hnd, substE_get fs hnd]
  simp only [if_true, Bool.false_eq_true, if_false]
  rw [anti_sum, Matrix.mul_apply, Finset.sum_smul]
  refine Finset.sum_congr rfl fun i _ => ?_
  rw [Finset.sum_eq_single i]
  · rw [he]; simp [contraction, Matrix.conjTranspose_apply]
  · intro j _ hj
    rw [he, contraction, if_neg, zero_smul, smul_zero]
    rintro ⟨_, h⟩
    exact hj (hnd.injective_get h).symm
  · simp

theorem CAR.substE {e : Gen ι → A} (he : CAR e) (fs : List ι) (hnd : fs.Nodup)
    (U : Matrix (Fin fs.length) (Fin fs.length) ℂ) (hU : U * U.conjTranspose = 1) :
    CAR (substE fs U e) := by
  have mixed : ∀ s t : ι, Operators.substE fs U e ⟨false, s⟩ * Operators.substE fs U e ⟨true, t⟩
      + Operators.substE fs U e ⟨true, t⟩ * Operators.substE fs U e ⟨false, s⟩
      = contraction (⟨false, s⟩ : Gen ι) ⟨true, t⟩ • (1 : A) := by
    intro s t
    cases hs : lookup fs s with
    | none =>
      have hs' := lookup_none fs _ hs
      cases ht : lookup fs t with
      | none =>
        rw [substE_not_mem _ _ _ _ hs', substE_not_mem _ _ _ _ (lookup_none fs _ ht), he]
      | some l =>
        have ht' := lookup_some fs _ l ht
        subst ht'
        rw [substE_not_mem _ _ _ ⟨false, s⟩ hs', substE_get fs hnd]
        have hc : contraction (⟨false, s⟩ : Gen ι) ⟨true, fs.get l⟩ = 0 := by
          rw [contraction, if_neg]
          rintro ⟨_, rfl⟩
          exact hs' (List.get_mem fs l)
        rw [hc, zero_smul, Finset.mul_sum, Finset.sum_mul, ← Finset.sum_add_distrib]
        refine Finset.sum_eq_zero fun j _ => ?_
        have hc' : contraction (⟨false, s⟩ : Gen ι) ⟨true, fs.get j⟩ = 0 := by
          rw [contraction, if_neg]
          rintro ⟨_, rfl⟩
          exact hs' (List.get_mem fs j)
        rw [mul_smul_comm, smul_mul_assoc, ← smul_add, he, hc', zero_smul, smul_zero]
    | some k =>
      have hs' := lookup_some fs _ k hs
      subst hs'
      cases ht : lookup fs t with
      | none =>
        have ht' := lookup_none fs _ ht
        rw [substE_not_mem _ _ _ ⟨true, t⟩ ht', substE_get fs hnd]
        have hc : contraction (⟨false, fs.get k⟩ : Gen ι) ⟨true, t⟩ = 0 := by
          rw [contraction, if_neg]
          rintro ⟨_, rfl⟩
          exact ht' (List.get_mem fs k)
        rw [hc, zero_smul, Finset.mul_sum, Finset.sum_mul, ← Finset.sum_add_distrib]
        refine Finset.sum_eq_zero fun j _ => ?_
        have hc' : contraction (⟨false, fs.get j⟩ : Gen ι) ⟨true, t⟩ = 0 := by
          rw [contraction, if_neg]
          rintro ⟨_, rfl⟩
          exact ht' (List.get_mem fs j)
        rw [mul_smul_comm, smul_mul_assoc, ← smul_add, he, hc', zero_smul, smul_zero]
      | some l =>
        have ht' := lookup_some fs _ l ht
        subst ht'
        rw [substE_mixed fs hnd U he, hU, Matrix.one_apply, contraction]
        congr 1
        by_cases hkl : k = l
        · rw [if_pos hkl, if_pos ⟨by simp, by rw [hkl]⟩]
        · rw [if_neg hkl, if_neg]
          rintro ⟨_, h⟩
          exact hkl (hnd.injective_get h)
  rintro ⟨d, s⟩ ⟨d', t⟩
  cases d <;> cases d'
  · rw [(he.half.substE fs hnd U) ⟨_, s⟩ ⟨_, t⟩ rfl, contraction, if_neg (by simp), zero_smul]
  · exact mixed s t
  · rw [add_comm, mixed t s, contraction_comm]
  · rw [(he.half.substE fs hnd U) ⟨_, s⟩ ⟨_, t⟩ rfl, contraction, if_neg (by simp), zero_smul]

end

/-! ### Relabelling -/

theorem contraction_eq (g h : Gen ι) : contraction g h = if h = flip g then 1 else 0 := by
  unfold contraction
  congr 1
  obtain ⟨d, i⟩ := g
  obtain ⟨d', i'⟩ := h
  simp only [flip, Gen.mk.injEq, eq_iff_iff]
  cases d <;> cases d' <;> simp [eq_comm]

/-- The replacement of an elementary operator when both lists consist of
elementary operators. -/
def relabelTo (src dst : List (Gen ι)) (hlen : src.length = dst.length) (g : Gen ι) : Gen ι :=
  match src.finIdxOf? g with
  | none => g
  | some k => dst.get (k.cast hlen)

theorem relabelTo_get (src dst : List (Gen ι)) (hlen : src.length = dst.length)
    (hnd : src.Nodup) (k : Fin src.length) :
    relabelTo src dst hlen (src.get k) = dst.get (k.cast hlen) := by
  unfold relabelTo
  have : src.finIdxOf? (src.get k) = some k := by
    rw [List.finIdxOf?_eq_some_iff]
    exact ⟨rfl, fun j hj h => (ne_of_lt hj) (hnd.injective_get h)⟩
  rw [this]

theorem relabelTo_not_mem (src dst : List (Gen ι)) (hlen : src.length = dst.length)
    (g : Gen ι) (h : g ∉ src) : relabelTo src dst hlen g = g := by
  unfold relabelTo
  have : src.finIdxOf? g = none := by rwa [List.finIdxOf?_eq_none_iff]
  rw [this]

theorem relabelGen_elem (src dst : List (Gen ι)) (hlen : src.length = dst.length) (g : Gen ι) :
    relabelGen src (fun k => elem (dst.get (k.cast hlen))) g
      = linOp [(1, relabelTo src dst hlen g)] := by
  unfold relabelGen relabelTo
  cases h : src.finIdxOf? g with
  | none => simp [linOp]
  | some k => simp [linOp]

/-- Going back undoes the replacement on operators that were not hit by it. -/
theorem relabelTo_back (src dst : List (Gen ι)) (hlen : src.length = dst.length)
    (hs : src.Nodup) (hd : dst.Nodup) (g : Gen ι) (hg : g ∈ dst → g ∈ src) :
    relabelTo dst src hlen.symm (relabelTo src dst hlen g) = g := by
  by_cases h : g ∈ src
  · obtain ⟨k, rfl⟩ := List.get_of_mem h
    rw [relabelTo_get src dst hlen hs, relabelTo_get dst src hlen.symm hd]
    rfl
  · rw [relabelTo_not_mem src dst hlen g h,
      relabelTo_not_mem dst src hlen.symm g fun h' => h (hg h')]

/-- The lists treat an operator and its conjugate alike. -/
def FlipClosed (src dst : List (Gen ι)) (hlen : src.length = dst.length) : Prop :=
  ∀ k : Fin src.length, ∃ k' : Fin src.length,
    src.get k' = flip (src.get k) ∧ dst.get (k'.cast hlen) = flip (dst.get (k.cast hlen))

theorem relabelTo_flip (src dst : List (Gen ι)) (hlen : src.length = dst.length)
    (hs : src.Nodup) (hf : FlipClosed src dst hlen) (g : Gen ι) :
    relabelTo src dst hlen (flip g) = flip (relabelTo src dst hlen g) := by
  by_cases h : g ∈ src
  · obtain ⟨k, rfl⟩ := List.get_of_mem h
    obtain ⟨k', h1, h2⟩ := hf k
    rw [← h1, relabelTo_get src dst hlen hs, h2, relabelTo_get src dst hlen hs]
  · rw [relabelTo_not_mem src dst hlen g h, relabelTo_not_mem]
    intro h'
    obtain ⟨k, hk⟩ := List.get_of_mem h'
    obtain ⟨k', h1, _⟩ := hf k
    rw [hk, flip_flip] at h1
    exact h (h1 ▸ List.get_mem src k')

theorem relabel_allowed_flip (src dst : List (Gen ι)) (hlen : src.length = dst.length)
    (hf : FlipClosed src dst hlen) (g : Gen ι) (hg : g ∈ dst → g ∈ src) :
    flip g ∈ dst → flip g ∈ src := by
  intro h
  obtain ⟨k, hk⟩ := List.get_of_mem h
  obtain ⟨k1, h1, h2⟩ := hf (k.cast hlen.symm)
  have hgd : g ∈ dst := by
    have : dst.get (k1.cast hlen) = g := by
      rw [h2]
      have : dst.get ((k.cast hlen.symm).cast hlen) = flip g := hk
      rw [this, flip_flip]
    exact this ▸ List.get_mem dst _
  obtain ⟨k2, hk2⟩ := List.get_of_mem (hg hgd)
  obtain ⟨k3, h3, _⟩ := hf k2
  rw [hk2] at h3
  exact h3 ▸ List.get_mem src k3

end Verif.Operators
