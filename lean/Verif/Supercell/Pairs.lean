import Verif.Supercell.Lemmas
import Verif.Rpa.Model

/-!
# Orbitals of one atom, and pairs of them
-/

set_option linter.unusedSectionVars false

noncomputable section

namespace Verif.Supercell

open Verif.Fourier Matrix Classical

variable {d d' : ℕ} {n : Fin d → ℕ} {m : Fin d' → ℕ} {o O : Type*}

/-- the orbitals of an atom stay together in the new description -/
def Atoms (c : Cell n m o O) (s : Setoid o) : Prop := ∀ x b, s.r (c.orb x) b → ∃ y, c.orb y = b ∧ c.pos y = c.pos x

/-- two orbitals of the same atom -/
def Near (c : Cell n m o O) (s : Setoid o) (x y : O) : Prop := c.pos x = c.pos y ∧ s.r (c.orb x) (c.orb y)

/-- an interaction between the orbitals of one atom -/
def Onsite {F : Type*} [Zero F] (s : Setoid o) (U : o → o → o → o → F) : Prop :=
  ∀ a b c e, U a b c e ≠ 0 → s.r a b ∧ s.r b c ∧ s.r c e

/-- the same interaction on all atoms of the new cell -/
def place {F : Type*} [Zero F] (c : Cell n m o O) (s : Setoid o) (U : o → o → o → o → F) : O → O → O → O → F := fun x y z u =>
  if Near c s x y ∧ Near c s y z ∧ Near c s z u then U (c.orb x) (c.orb y) (c.orb z) (c.orb u) else 0

/-- a one-body term on every atom -/
def place1 (c : Cell n m o O) (s : Setoid o) (M : Matrix o o ℂ) : Matrix O O ℂ := fun x y =>
  if Near c s x y then M (c.orb x) (c.orb y) else 0

/-- A tensor of two pairs, each on one atom, in the new description. Its first pair is in the cell at the origin, its second in
the cell at the lattice vector. -/
def PairOf [∀ i, NeZero (n i)] [∀ i, NeZero (m i)] (c : Cell n m o O) (s : Setoid o) (f : Lat n → o → o → o → o → ℂ)
    (f' : Lat m → O → O → O → O → ℂ) : Prop :=
  ∀ R x y z u, Near c s x y → Near c s z u →
    kToR f' R x y z u = kToR f (c.emb R + c.pos z - c.pos x) (c.orb x) (c.orb y) (c.orb z) (c.orb u)

/-- a tensor without other elements than those between pairs on atoms -/
def Paired (r : o → o → Prop) (V : o → o → o → o → ℂ) : Prop := ∀ a b c e, V a b c e ≠ 0 → r a b ∧ r c e

variable {c : Cell n m o O} {s : Setoid o}

theorem Near.refl (x : O) : Near c s x x := ⟨rfl, s.refl _⟩

theorem Near.symm {x y : O} (h : Near c s x y) : Near c s y x := ⟨h.1.symm, s.symm h.2⟩

theorem Near.trans {x y z : O} (h : Near c s x y) (h' : Near c s y z) : Near c s x z := ⟨h.1.trans h'.1, s.trans h.2 h'.2⟩

theorem Near.eq {x y : O} (h : Near c s x y) (h' : c.orb x = c.orb y) : x = y := (c.inj (R := 0) (S := 0) (by rw [h.1]) h').2

section Sums

variable [Fintype o] [Fintype O]

/-- sums over the orbitals of an atom -/
theorem sum_near {E : Type*} [AddCommMonoid E] (ha : Atoms c s) (x : O) (F : o → E) :
    (∑ z, if Near c s x z then F (c.orb z) else 0) = ∑ a, if s.r (c.orb x) a then F a else 0 := by
  rw [← Finset.sum_filter, ← Finset.sum_filter]
  refine Finset.sum_bij (fun z _ => c.orb z) (fun z hz => ?_) (fun z hz w hw h => ?_) (fun a h => ?_) fun _ _ => rfl
  · exact Finset.mem_filter.2 ⟨Finset.mem_univ _, (Finset.mem_filter.1 hz).2.2⟩
  · exact ((Finset.mem_filter.1 hz).2.symm.trans (Finset.mem_filter.1 hw).2).eq h
  · obtain ⟨y, h1, h2⟩ := ha x a (Finset.mem_filter.1 h).2
    exact ⟨y, Finset.mem_filter.2 ⟨Finset.mem_univ _, h2.symm, by rw [h1]; exact (Finset.mem_filter.1 h).2⟩, h1⟩

end Sums

/-! ## One-body terms -/

section One

variable [∀ i, NeZero (n i)] [∀ i, NeZero (m i)] [Fintype o] [DecidableEq o] [Fintype O] [DecidableEq O]

theorem kToR_const (M : Matrix o o ℂ) (r : Lat n) : kToR (fun _ => M) r = if r = 0 then M else 0 := by
  have h : kToR (fun _ : Lat n => (1 : ℂ)) r = if r = 0 then 1 else 0 := by
    have h1 : (fun _ : Lat n => (1 : ℂ)) = rToK fun r : Lat n => if r = 0 then (1 : ℂ) else 0 := by
      funext k
      simp only [rToK, fftw_one]
      rw [Finset.sum_eq_single 0 (fun r _ h => by rw [if_neg h, smul_zero]) fun h => absurd (Finset.mem_univ _) h, if_pos rfl,
        ker_zero_left, one_smul]
    rw [h1, kToR_rToK]
  have h2 : kToR (fun _ : Lat n => M) r = kToR (fun _ : Lat n => (1 : ℂ)) r • M := by
    simp only [kToR, fftw, smul_eq_mul, mul_one]
    rw [mul_smul, Finset.sum_smul]
  rw [h2, h]
  by_cases h3 : r = 0
  · rw [if_pos h3, if_pos h3, one_smul]
  · rw [if_neg h3, if_neg h3, zero_smul]

/-- a term within the atoms has no momentum dependence in any description -/
theorem up_const (ha : Atoms c s) {M : Matrix o o ℂ} (hM : ∀ a b, M a b ≠ 0 → s.r a b) (K : Lat m) :
    c.up (fun _ => M) K = place1 c s M := by
  have h : c.foldM (kToR fun _ => M) = kToR fun _ => place1 c s M := by
    funext R
    ext x y
    change kToR (fun _ => M) (c.emb R + c.pos x - c.pos y) (c.orb x) (c.orb y) = _
    rw [kToR_const, kToR_const]
    by_cases h0 : M (c.orb x) (c.orb y) = 0
    · have e1 : (if c.emb R + c.pos x - c.pos y = 0 then M else 0) (c.orb x) (c.orb y) = 0 := by
        split_ifs
        · exact h0
        · rfl
      have e2 : (if R = 0 then place1 c s M else 0) x y = 0 := by
        split_ifs
        · unfold place1
          rw [h0, ite_self]
        · rfl
      rw [e1, e2]
    · have hs := hM _ _ h0
      by_cases h1 : c.emb R + c.pos x - c.pos y = 0
      · obtain ⟨y', h2, h3⟩ := ha x _ hs
        have h4 := c.inj (R := R) (S := 0) (x := y') (y := y) (by rw [h3, map_zero, zero_add]; exact sub_eq_zero.1 h1) h2
        have hn : Near c s x y := ⟨by rw [← h4.2, h3], hs⟩
        rw [if_pos h1, if_pos h4.1]
        exact (if_pos hn).symm
      · have e2 : (if R = 0 then place1 c s M else 0) x y = 0 := by
          split_ifs with h2
          · refine if_neg fun hn => h1 ?_
            rw [h2, map_zero, zero_add, hn.1, sub_self]
          · rfl
        rw [if_neg h1, e2]
        rfl
  unfold Cell.up
  rw [h, rToK_kToR]

end One

/-! ## Pairs -/

/-- pairs of orbitals of one atom -/
abbrev OldPair (s : Setoid o) := {p : o × o // s.r p.1 p.2}

/-- the same in the new cell -/
abbrev NewPair (c : Cell n m o O) (s : Setoid o) := {p : O × O // Near c s p.1 p.2}

/-- the description of pairs, with a further index; the orientation is that of `PairOf` -/
def pairCell (ν : Type*) (ha : Atoms c s) : Cell n m (ν × OldPair s) (ν × NewPair c s) where
  emb := c.emb
  pos x := -c.pos x.2.1.1
  orb x := (x.1, ⟨(c.orb x.2.1.1, c.orb x.2.1.2), x.2.2.2⟩)
  bij := by
    constructor
    · rintro ⟨R, i, ⟨⟨x, y⟩, h⟩⟩ ⟨S, j, ⟨⟨x', y'⟩, h'⟩⟩ e
      have e' := Prod.mk.inj e
      have e1 := Prod.mk.inj e'.2
      have e2 := Prod.mk.inj (Subtype.mk.inj e1.2)
      dsimp only at e2 e1
      have e3 : c.neg.emb R + c.neg.pos x = c.neg.emb S + c.neg.pos x' := e'.1
      obtain ⟨rfl, rfl⟩ := c.neg.inj e3 e2.1
      have : y = y' := (h.symm.trans h').eq e2.2
      subst this
      rw [e1.1]
    · rintro ⟨r, i, ⟨⟨a, b⟩, h⟩⟩
      obtain ⟨⟨R, x⟩, hx⟩ := c.neg.bij.2 (r, a)
      obtain ⟨h1, h2⟩ := Prod.mk.inj hx
      change c.orb x = a at h2
      subst h2
      obtain ⟨y, h3, h4⟩ := ha x b h
      change c.orb y = b at h3
      subst h3
      exact ⟨(R, i, ⟨⟨x, y⟩, h4.symm, h⟩), Prod.ext h1 rfl⟩

theorem pairCell_atoms {ν : Type*} (ha : Atoms c s) (t : Setoid (ν × OldPair s)) (ht : ∀ x y, t.r x y → s.r x.2.1.1 y.2.1.1) :
    Atoms (pairCell ν ha) t := by
  rintro ⟨i, ⟨⟨x, y⟩, h⟩⟩ ⟨j, ⟨⟨a, b⟩, h'⟩⟩ hr
  obtain ⟨z, h1, h2⟩ := ha x a (ht _ _ hr)
  change c.orb z = a at h1
  subst h1
  obtain ⟨u, h3, h4⟩ := ha z b h'
  change c.orb u = b at h3
  subst h3
  refine ⟨(j, ⟨⟨z, u⟩, h4.symm, h'⟩), rfl, ?_⟩
  change -c.pos z = -c.pos x
  rw [h2]

/-- the atom of a pair -/
def pairSetoid (ν : Type*) (s : Setoid o) : Setoid (ν × OldPair s) where
  r x y := s.r x.2.1.1 y.2.1.1
  iseqv := ⟨fun _ => s.refl _, fun h => s.symm h, fun h h' => s.trans h h'⟩

/-! ## Linear equations for pairs -/

section Block

variable {J P : Type*} [Fintype J] [DecidableEq J] [Fintype P] [DecidableEq P]

/-- no elements outside of the pairs -/
def Inside (ι : P → J) (U : Matrix J J ℂ) : Prop := ∀ i j, U i j ≠ 0 → i ∈ Set.range ι ∧ j ∈ Set.range ι

theorem mul_inside_mul {ι : P → J} (hi : Function.Injective ι) {U : Matrix J J ℂ} (hU : Inside ι U) (A B : Matrix J J ℂ) :
    (A * U * B).submatrix ι ι = A.submatrix ι ι * U.submatrix ι ι * B.submatrix ι ι := by
  ext p q
  simp only [Matrix.submatrix_apply, Matrix.mul_apply]
  refine (Fintype.sum_of_injective ι hi _ _ (fun j hn => ?_) fun j => ?_).symm
  · have : ∑ i, A (ι p) i * U i j = 0 := Finset.sum_eq_zero fun i _ => by
      rw [show U i j = 0 from by_contra fun h => hn (hU i j h).2, mul_zero]
    rw [this, zero_mul]
  · congr 1
    refine Fintype.sum_of_injective ι hi _ _ (fun i hn => ?_) fun i => rfl
    rw [show U i (ι j) = 0 from by_contra fun h => hn (hU i _ h).1, mul_zero]

theorem inside_mul {ι : P → J} (hi : Function.Injective ι) {U : Matrix J J ℂ} (hU : Inside ι U) (B : Matrix J J ℂ) :
    (U * B).submatrix ι ι = U.submatrix ι ι * B.submatrix ι ι := by
  have h := mul_inside_mul hi hU 1 B
  rw [one_mul, Matrix.submatrix_one ι hi, one_mul] at h
  exact h

theorem mul_inside {ι : P → J} (hi : Function.Injective ι) {U : Matrix J J ℂ} (hU : Inside ι U) (A : Matrix J J ℂ) :
    (A * U).submatrix ι ι = A.submatrix ι ι * U.submatrix ι ι := by
  have h := mul_inside_mul hi hU A 1
  rw [mul_one, Matrix.submatrix_one ι hi, mul_one] at h
  exact h

/-- the determinant of the equation is that on the pairs -/
theorem det_inside {ι : P → J} (hi : Function.Injective ι) {U : Matrix J J ℂ} (hU : Inside ι U) (A : Matrix J J ℂ) :
    (1 - A * U).det = (1 - A.submatrix ι ι * U.submatrix ι ι).det := by
  have h1 : A * U = A.submatrix (fun j => j) ι * (U.submatrix ι ι * (1 : Matrix J J ℂ).submatrix ι (fun j => j)) := by
    ext i j
    simp only [Matrix.mul_apply, Matrix.submatrix_apply]
    by_cases hj : j ∈ Set.range ι
    · obtain ⟨q, rfl⟩ := hj
      refine (Fintype.sum_of_injective ι hi _ _ (fun k hn => ?_) fun k => ?_).symm
      · rw [show U k (ι q) = 0 from by_contra fun h => hn (hU k _ h).1, mul_zero]
      · congr 1
        rw [Finset.sum_eq_single q]
        · rw [Matrix.one_apply_eq, mul_one]
        · intro r _ hr
          rw [Matrix.one_apply_ne fun h => hr (hi h), mul_zero]
        · exact fun h => absurd (Finset.mem_univ _) h
    · rw [Finset.sum_eq_zero, Finset.sum_eq_zero]
      · intro p _
        rw [Finset.sum_eq_zero, mul_zero]
        intro q _
        rw [Matrix.one_apply_ne fun h => hj ⟨q, h⟩, mul_zero]
      · intro k _
        rw [show U k j = 0 from by_contra fun h => hj (hU k j h).2, mul_zero]
  have h2 : U.submatrix ι ι * (1 : Matrix J J ℂ).submatrix ι (fun j => j) * A.submatrix (fun j => j) ι = U.submatrix ι ι * A.submatrix ι ι := by
    rw [Matrix.mul_assoc]
    congr 1
    ext p q
    simp only [Matrix.mul_apply, Matrix.submatrix_apply]
    rw [Finset.sum_eq_single (ι p)]
    · rw [Matrix.one_apply_eq, one_mul]
    · intro k _ hk
      rw [Matrix.one_apply_ne hk.symm, zero_mul]
    · exact fun h => absurd (Finset.mem_univ _) h
  rw [h1, Matrix.det_one_sub_mul_comm, h2, Matrix.det_one_sub_mul_comm]

theorem inv_inside {ι : P → J} (hi : Function.Injective ι) {U : Matrix J J ℂ} (hU : Inside ι U) (A : Matrix J J ℂ)
    (h : IsUnit (1 - A * U).det) : (1 - A * U)⁻¹.submatrix ι ι = (1 - A.submatrix ι ι * U.submatrix ι ι)⁻¹ := by
  have h1 : (1 - A * U) * (1 - A * U)⁻¹ = 1 := Matrix.mul_nonsing_inv _ h
  have h2 : (1 - A.submatrix ι ι * U.submatrix ι ι) * (1 - A * U)⁻¹.submatrix ι ι = 1 := by
    have h3 := congrArg (fun X => X.submatrix ι ι) h1
    rw [sub_mul, one_mul, Matrix.submatrix_sub, Matrix.submatrix_one ι hi] at h3
    rw [sub_mul, one_mul, ← mul_inside_mul hi hU]
    exact h3
  exact (Matrix.inv_eq_right_inv h2).symm

theorem solve_inside {ι : P → J} (hi : Function.Injective ι) {U : Matrix J J ℂ} (hU : Inside ι U) (A : Matrix J J ℂ)
    (h : IsUnit (1 - A * U).det) :
    ((1 - A * U)⁻¹ * A).submatrix ι ι = (1 - A.submatrix ι ι * U.submatrix ι ι)⁻¹ * A.submatrix ι ι := by
  have h1 : (1 - A * U) * ((1 - A * U)⁻¹ * A) = A := Matrix.mul_nonsing_inv_cancel_left _ _ h
  have h2 : (1 - A.submatrix ι ι * U.submatrix ι ι) * ((1 - A * U)⁻¹ * A).submatrix ι ι = A.submatrix ι ι := by
    have h3 := congrArg (fun X => X.submatrix ι ι) h1
    rw [sub_mul, one_mul, Matrix.submatrix_sub] at h3
    rw [sub_mul, one_mul, ← mul_inside_mul hi hU]
    exact h3
  have h4 : IsUnit (1 - A.submatrix ι ι * U.submatrix ι ι).det := by rw [← det_inside hi hU]; exact h
  have h5 := congrArg (fun X => (1 - A.submatrix ι ι * U.submatrix ι ι)⁻¹ * X) h2
  rwa [Matrix.nonsing_inv_mul_cancel_left _ _ h4] at h5

end Block

section Blocks

variable [∀ i, NeZero (n i)] [∀ i, NeZero (m i)] {J J' P P' : Type*} [Fintype J] [DecidableEq J] [Fintype P] [DecidableEq P]
  [Fintype J'] [DecidableEq J'] [Fintype P'] [DecidableEq P']

/-- agreement of two descriptions on the pairs -/
def Same (e : Cell n m P P') (ι : P → J) (ι' : P' → J') (A : Lat n → Matrix J J ℂ) (A' : Lat m → Matrix J' J' ℂ) : Prop :=
  ∀ K, (A' K).submatrix ι' ι' = e.up (fun k => (A k).submatrix ι ι) K

variable {e : Cell n m P P'} {ι : P → J} {ι' : P' → J'} {A B U : Lat n → Matrix J J ℂ} {A' B' U' : Lat m → Matrix J' J' ℂ}

theorem Same.unit (hi : Function.Injective ι) (hi' : Function.Injective ι') (hA : Same e ι ι' A A') (hU : Same e ι ι' U U')
    (h : ∀ k, Inside ι (U k)) (h' : ∀ K, Inside ι' (U' K)) (hu : ∀ k, IsUnit (1 - A k * U k).det) (K : Lat m) :
    IsUnit (1 - A' K * U' K).det ∧ (1 - A' K * U' K)⁻¹.submatrix ι' ι' = e.up (fun k => (1 - A k * U k)⁻¹.submatrix ι ι) K := by
  have e1 : ∀ k, (1 - A k * U k)⁻¹.submatrix ι ι = (1 - (A k).submatrix ι ι * (U k).submatrix ι ι)⁻¹ := fun k =>
    inv_inside hi (h k) _ (hu k)
  have h1 := e.up_inv (f := fun k => 1 - (A k).submatrix ι ι * (U k).submatrix ι ι) (fun k => by rw [← det_inside hi (h k)]; exact hu k) K
  rw [e.up_sub, e.up_one, e.up_mul, ← hA K, ← hU K] at h1
  have h2 : IsUnit (1 - A' K * U' K).det := by rw [det_inside hi' (h' K)]; exact h1.1
  refine ⟨h2, ?_⟩
  rw [inv_inside hi' (h' K) _ h2, ← h1.2]
  simp only [e1]

theorem Same.solve (hi : Function.Injective ι) (hi' : Function.Injective ι') (hA : Same e ι ι' A A') (hU : Same e ι ι' U U')
    (h : ∀ k, Inside ι (U k)) (h' : ∀ K, Inside ι' (U' K)) (hu : ∀ k, IsUnit (1 - A k * U k).det) :
    Same e ι ι' (fun k => (1 - A k * U k)⁻¹ * A k) fun K => (1 - A' K * U' K)⁻¹ * A' K := by
  intro K
  obtain ⟨h1, h2⟩ := Same.unit hi hi' hA hU h h' hu K
  rw [inv_inside hi' (h' K) _ h1] at h2
  rw [solve_inside hi' (h' K) _ h1, h2, hA K, ← e.up_mul]
  congr 1
  funext k
  rw [solve_inside hi (h k) _ (hu k), inv_inside hi (h k) _ (hu k)]

theorem Same.left (hi : Function.Injective ι) (hi' : Function.Injective ι') (hA : Same e ι ι' A A') (hU : Same e ι ι' U U')
    (h : ∀ k, Inside ι (U k)) (h' : ∀ K, Inside ι' (U' K)) : Same e ι ι' (fun k => U k * A k) fun K => U' K * A' K := by
  intro K
  rw [inside_mul hi' (h' K), hU K, hA K, ← e.up_mul]
  congr 1
  funext k
  rw [inside_mul hi (h k)]

theorem Same.right (hi : Function.Injective ι) (hi' : Function.Injective ι') (hA : Same e ι ι' A A') (hU : Same e ι ι' U U')
    (h : ∀ k, Inside ι (U k)) (h' : ∀ K, Inside ι' (U' K)) : Same e ι ι' (fun k => A k * U k) fun K => A' K * U' K := by
  intro K
  rw [mul_inside hi' (h' K), hU K, hA K, ← e.up_mul]
  congr 1
  funext k
  rw [mul_inside hi (h k)]

theorem Same.add (hA : Same e ι ι' A A') (hB : Same e ι ι' B B') : Same e ι ι' (fun k => A k + B k) fun K => A' K + B' K := by
  intro K
  rw [Matrix.submatrix_add, Pi.add_apply, Pi.add_apply, hA K, hB K, ← e.up_add]
  rfl

end Blocks

end Verif.Supercell
