import Mathlib.Data.Complex.Basic
import Mathlib.Data.Finsupp.Basic
import Mathlib.LinearAlgebra.Finsupp.LinearCombination
import Mathlib.Data.Sum.Order
import Mathlib.Data.List.Sort
import Mathlib.Algebra.Algebra.Basic
import Mathlib.Algebra.BigOperators.Group.List.Basic

/-!
# The TRIQS second quantisation `Operator` class

`triqs.operators` is a dependency, not part of /repo.  The routines of
`python/triqs_tprf/OperatorUtils.py` rest on its documented behaviour, which is
what is modelled here:

* an `Operator` is a map from normal ordered monomials to coefficients, without
  zero coefficients (`std::map<monomial_t, scalar_t>`); iterating over an
  operator gives the pairs `(monomial, coefficient)` in the order of the map,
* a monomial is a list of elementary operators `(dagger, indices)`, creation
  operators first, with increasing indices, then annihilation operators with
  decreasing indices,
* products are brought to this form with the canonical anticommutation
  relations.

`ι` is the type of index tuples; only their order matters.
-/

noncomputable section

namespace Verif.Operators

/-- One elementary operator: `(dagger flag, index tuple)`. -/
structure Gen (ι : Type) where
  dag : Bool
  idx : ι
deriving DecidableEq

variable {ι : Type} [LinearOrder ι]

/-- Sort key: creators first and increasing, then annihilators, decreasing. -/
def Gen.key (g : Gen ι) : ι ⊕ₗ ιᵒᵈ :=
  if g.dag then Sum.inlₗ g.idx else Sum.inrₗ (OrderDual.toDual g.idx)

omit [LinearOrder ι] in
theorem Gen.key_injective : Function.Injective (Gen.key (ι := ι)) := by
  rintro ⟨d, i⟩ ⟨d', i'⟩ h
  cases d <;> cases d' <;> simp_all [Gen.key]

/-- The order of elementary operators inside a monomial. -/
instance : LinearOrder (Gen ι) := LinearOrder.lift' Gen.key Gen.key_injective

/-- A monomial. -/
abbrev Mono (ι : Type) := List (Gen ι)

/-- An operator: finitely many monomials with nonzero coefficients. -/
abbrev Op (ι : Type) := Mono ι →₀ ℂ

/-- The class invariant: every stored monomial is strictly ordered. -/
def Canonical (x : Op ι) : Prop := ∀ m ∈ x.support, m.Pairwise (· < ·)

/-- `{g, h}`: one for an annihilator and a creator of the same index. -/
def contraction (g h : Gen ι) : ℂ := if g.dag ≠ h.dag ∧ g.idx = h.idx then 1 else 0

/-- Normal form of `g * m` for a normal ordered `m`: move `g` to its place, with
a sign per exchange and the contraction term of each exchange. -/
def mulGen (g : Gen ι) : Mono ι → Op ι
  | [] => Finsupp.single [g] 1
  | h :: m =>
    if g = h then 0
    else if g < h then Finsupp.single (g :: h :: m) 1
    else -((mulGen g m).mapDomain (List.cons h)) + Finsupp.single m (contraction g h)

/-- `g * x` for an operator `x`. -/
def lmul (g : Gen ι) : Op ι →ₗ[ℂ] Op ι := Finsupp.linearCombination ℂ (mulGen g)

/-- Normal form of an arbitrary product of elementary operators. -/
def nf (l : Mono ι) : Op ι := l.foldr (fun g x => lmul g x) (Finsupp.single [] 1)

/-- `Operator.__mul__`: all pairs of monomials, each product normal ordered. -/
def mul (x y : Op ι) : Op ι :=
  x.sum fun m c => y.sum fun m' c' => (c * c') • nf (m ++ m')

/-- `Operator(1.)` -/
def one : Op ι := Finsupp.single [] 1

/-- `c(*idx)` / `c_dag(*idx)` -/
def elem (g : Gen ι) : Op ι := Finsupp.single [g] 1

def c (i : ι) : Op ι := elem ⟨false, i⟩
def cDag (i : ι) : Op ι := elem ⟨true, i⟩

/-- Hermitian conjugate of a monomial. -/
def daggerMono (m : Mono ι) : Mono ι := m.reverse.map fun g => ⟨!g.dag, g.idx⟩

/-- `dagger(op)` -/
def dagger (x : Op ι) : Op ι := x.sum fun m a => (starRingEnd ℂ a) • nf (daggerMono m)

/-- `list(op)`: an enumeration of the stored pairs, in any order. -/
def Enumerates (ts : List (Mono ι × ℂ)) (x : Op ι) : Prop :=
  (ts.map Prod.fst).Nodup ∧ ∀ m a, (m, a) ∈ ts ↔ a ≠ 0 ∧ x m = a

/-! ### Meaning: evaluation in an algebra -/

/-- Value of an operator when the elementary operators are given in an algebra. -/
def eval {A : Type*} [Ring A] [Algebra ℂ A] (e : Gen ι → A) (x : Op ι) : A :=
  x.sum fun m a => a • (m.map e).prod

/-- The canonical anticommutation relations. -/
def CAR {A : Type*} [Ring A] [Algebra ℂ A] (e : Gen ι → A) : Prop :=
  ∀ g h, e g * e h + e h * e g = contraction g h • (1 : A)

/-- The relations without the mixed one. -/
def HalfCAR {A : Type*} [Ring A] [Algebra ℂ A] (e : Gen ι → A) : Prop :=
  ∀ g h, g.dag = h.dag → e g * e h + e h * e g = 0

end Verif.Operators
