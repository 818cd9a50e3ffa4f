import Verif.Supercell.Props
import Verif.Bse.Lemmas

/-!
# C128: the unit cell in the Bethe-Salpeter equations
-/

set_option linter.unusedSectionVars false

noncomputable section

namespace Verif.Supercell

open Verif.Fourier Verif.Parallel Verif.Bse Matrix Classical

variable {d d' : ℕ} {n : Fin d → ℕ} {m : Fin d' → ℕ} [∀ i, NeZero (n i)] [∀ i, NeZero (m i)] {o O : Type*} [Fintype o]
  [DecidableEq o] [Fintype O] [DecidableEq O] {c : Cell n m o O} {s : Setoid o}

/-! ## Linear combinations -/

theorem PairOf.add {f g : Lat n → o → o → o → o → ℂ} {f' g' : Lat m → O → O → O → O → ℂ} (hf : PairOf c s f f') (hg : PairOf c s g g') :
    PairOf c s (fun k => f k + g k) fun K => f' K + g' K := by
  intro R x y z u h1 h2
  rw [Cell.kToR_add', Cell.kToR_add']
  exact congrArg₂ (· + ·) (hf R x y z u h1 h2) (hg R x y z u h1 h2)

theorem PairOf.smul {f : Lat n → o → o → o → o → ℂ} {f' : Lat m → O → O → O → O → ℂ} (hf : PairOf c s f f') (t : ℂ) :
    PairOf c s (fun k => t • f k) fun K => t • f' K := by
  intro R x y z u h1 h2
  rw [Cell.kToR_smul', Cell.kToR_smul']
  exact congrArg (t * ·) (hf R x y z u h1 h2)

theorem PairOf.sub {f g : Lat n → o → o → o → o → ℂ} {f' g' : Lat m → O → O → O → O → ℂ} (hf : PairOf c s f f') (hg : PairOf c s g g') :
    PairOf c s (fun k => f k - g k) fun K => f' K - g' K := by
  have h := hf.add (hg.smul (-1))
  simp only [neg_smul, one_smul, ← sub_eq_add_neg] at h
  exact h

theorem PairOf.sum {I : Type*} (S : Finset I) {f : I → Lat n → o → o → o → o → ℂ} {f' : I → Lat m → O → O → O → O → ℂ}
    (hf : ∀ i ∈ S, PairOf c s (f i) (f' i)) : PairOf c s (fun k => ∑ i ∈ S, f i k) fun K => ∑ i ∈ S, f' i K := by
  induction S using Finset.induction_on with
  | empty => simpa using PairOf.zero
  | insert i S hi ih =>
    simp only [Finset.sum_insert hi]
    exact (hf i (Finset.mem_insert_self _ _)).add (ih fun j hj => hf j (Finset.mem_insert_of_mem hj))

theorem PairOf.ite {f : Lat n → o → o → o → o → ℂ} {f' : Lat m → O → O → O → O → ℂ} (hf : PairOf c s f f') (P : Prop)
    [Decidable P] :
    PairOf c s (fun k => if P then f k else 0) fun K => if P then f' K else 0 := by
  by_cases h : P
  · simp only [if_pos h]
    exact hf
  · simp only [if_neg h]
    exact PairOf.zero

/-! ## Matrices of frequencies and pairs -/

variable {ν : Type*} [Fintype ν] [DecidableEq ν]

/-- the same for all pairs of frequencies -/
def PairOf6 (c : Cell n m o O) (s : Setoid o) (f : Lat n → T6 ν o ℂ) (f' : Lat m → T6 ν O ℂ) : Prop :=
  ∀ i j, PairOf c s (fun k => f k i j) fun K => f' K i j

/-- a vertex within the atoms in the new cell -/
def place6 (c : Cell n m o O) (s : Setoid o) (g : T6 ν o ℂ) : T6 ν O ℂ := fun i j => place c s (g i j)

/-- inclusion of the pairs -/
def oldIn6 (ν : Type*) (s : Setoid o) : ν × OldPair s → ν × o × o := fun p => (p.1, p.2.1)

/-- inclusion of the pairs -/
def newIn6 (ν : Type*) (c : Cell n m o O) (s : Setoid o) : ν × NewPair c s → ν × O × O := fun p => (p.1, p.2.1)

theorem oldIn6_injective : Function.Injective (oldIn6 ν s) := fun _ _ h =>
  Prod.ext (Prod.mk.inj h).1 (Subtype.ext (Prod.mk.inj h).2)

theorem newIn6_injective : Function.Injective (newIn6 ν c s) := fun _ _ h =>
  Prod.ext (Prod.mk.inj h).1 (Subtype.ext (Prod.mk.inj h).2)

theorem same6_iff (ha : Atoms c s) {f : Lat n → T6 ν o ℂ} {f' : Lat m → T6 ν O ℂ} :
    PairOf6 c s f f' ↔ Same (pairCell ν ha) (oldIn6 ν s) (newIn6 ν c s) (fun k => chMat .PH (f k)) fun K => chMat .PH (f' K) := by
  have key : ∀ (R : Lat m) (p q : ν × NewPair c s),
      kToR (fun K => (chMat .PH (f' K)).submatrix (newIn6 ν c s) (newIn6 ν c s)) R p q
        = kToR (fun K => f' K p.1 q.1) R p.2.1.1 p.2.1.2 q.2.1.2 q.2.1.1 ∧
      (pairCell ν ha).foldM (kToR fun k => (chMat .PH (f k)).submatrix (oldIn6 ν s) (oldIn6 ν s)) R p q
        = kToR (fun k => f k p.1 q.1) (c.emb R + c.pos q.2.1.2 - c.pos p.2.1.1) (c.orb p.2.1.1) (c.orb p.2.1.2) (c.orb q.2.1.2)
          (c.orb q.2.1.1) := by
    intro R p q
    constructor
    · rw [kToR_entry4]
      exact kToR_entry _ _ _ _
    · change kToR (fun k => (chMat .PH (f k)).submatrix (oldIn6 ν s) (oldIn6 ν s)) (c.emb R + -c.pos p.2.1.1 - -c.pos q.2.1.1) _ _ = _
      rw [kToR_entry4, show c.emb R + -c.pos p.2.1.1 - -c.pos q.2.1.1 = c.emb R + c.pos q.2.1.2 - c.pos p.2.1.1 by
        rw [← q.2.2.1]; abel]
      exact kToR_entry _ _ _ _
  constructor
  · intro h K
    have h1 : kToR (fun K => (chMat .PH (f' K)).submatrix (newIn6 ν c s) (newIn6 ν c s))
        = (pairCell ν ha).foldM (kToR fun k => (chMat .PH (f k)).submatrix (oldIn6 ν s) (oldIn6 ν s)) := by
      funext R
      ext p q
      rw [(key R p q).1, (key R p q).2, h p.1 q.1 R _ _ _ _ p.2.2 q.2.2.symm]
    have h2 := congrArg (fun F => rToK F K) h1
    simp only [rToK_kToR] at h2
    exact h2
  · intro h i j R x y z u h1 h2
    have h3 := (key R (i, ⟨(x, y), h1⟩) (j, ⟨(u, z), h2.symm⟩))
    refine h3.1.symm.trans (Eq.trans ?_ h3.2)
    have h4 : (fun K => (chMat .PH (f' K)).submatrix (newIn6 ν c s) (newIn6 ν c s))
        = (pairCell ν ha).up fun k => (chMat .PH (f k)).submatrix (oldIn6 ν s) (oldIn6 ν s) := funext h
    rw [h4, Cell.kToR_up]

theorem old_inside6 {g : T6 ν o ℂ} (h : ∀ i j, Onsite s (g i j)) : Inside (oldIn6 ν s) (chMat .PH g) := fun i j hij =>
  ⟨⟨(i.1, ⟨i.2, (h _ _ _ _ _ _ hij).1⟩), rfl⟩, ⟨(j.1, ⟨j.2, s.symm (h _ _ _ _ _ _ hij).2.2⟩), rfl⟩⟩

theorem new_inside6 (g : T6 ν o ℂ) : Inside (newIn6 ν c s) (chMat .PH (place6 c s g)) := fun i j hij =>
  ⟨⟨(i.1, ⟨i.2, (place_paired (c := c) (s := s) (g i.1 j.1) _ _ _ _ hij).1⟩), rfl⟩,
    ⟨(j.1, ⟨j.2, (place_paired (c := c) (s := s) (g i.1 j.1) _ _ _ _ hij).2.symm⟩), rfl⟩⟩

theorem place_pairOf6 (ha : Atoms c s) {g : T6 ν o ℂ} (h : ∀ i j, Onsite s (g i j)) : PairOf6 c s (fun _ => g) fun _ => place6 c s g :=
  fun i j => place_pairOf ha (h i j)

theorem bse_pairOf (ha : Atoms c s) {chi0 : Lat n → T6 ν o ℂ} {chi0' : Lat m → T6 ν O ℂ} (hc : PairOf6 c s chi0 chi0') {g : T6 ν o ℂ}
    (hg : ∀ i j, Onsite s (g i j)) (hu : ∀ k, IsUnit (1 - chMat .PH (chi0 k) * chMat .PH g).det) :
    PairOf6 c s (fun k => bsePoint (chi0 k) g) fun K => bsePoint (chi0' K) (place6 c s g) := by
  rw [same6_iff ha]
  simp only [chMat_bsePoint]
  exact Same.solve oldIn6_injective newIn6_injective ((same6_iff ha).1 hc) ((same6_iff ha).1 (place_pairOf6 ha hg))
    (fun _ => old_inside6 hg) (fun _ => new_inside6 g) hu

theorem diag_pairOf {chi0 : ν → Lat n → T4 o ℂ} {chi0' : ν → Lat m → T4 O ℂ} (h : ∀ i, PairOf c s (chi0 i) (chi0' i)) :
    PairOf6 c s (fun k => diagEmbed fun i => chi0 i k) fun K => diagEmbed fun i => chi0' i K := by
  intro i j
  unfold diagEmbed
  dsimp only
  exact (h i).ite (i = j)

theorem traceNu_eq (beta : ℂ) (t : T6 ν o ℂ) : traceNu beta t = (beta * beta)⁻¹ • ∑ i, ∑ j, t i j := by
  funext x y z u
  simp only [traceNu, Pi.smul_apply, Finset.sum_apply, smul_eq_mul]
  rw [div_eq_inv_mul]

theorem trace_pairOf {f : Lat n → T6 ν o ℂ} {f' : Lat m → T6 ν O ℂ} (h : PairOf6 c s f f') (beta : ℂ) :
    PairOf c s (fun k => traceNu beta (f k)) fun K => traceNu beta (f' K) := by
  have h1 := (PairOf.sum Finset.univ fun i _ => PairOf.sum Finset.univ fun j _ => h i j).smul (beta * beta)⁻¹
  simp only [traceNu_eq]
  exact h1

/-! ## The three-legged vertex of the dual equation -/

theorem scalarProductPH_apply (vL : ν → T4 o ℂ) (M : T6 ν o ℂ) (vR : ν → T4 o ℂ) (a b c e : o) :
    scalarProductPH vL M vR a b c e
      = ∑ q, ∑ p, ∑ k, ∑ l, ∑ i, ∑ j, vL p i j b a * M p q i j k l * vR q l k c e := by
  change (∑ j : ν × o × o, (∑ i : ν × o × o, vL i.1 i.2.1 i.2.2 b a * M i.1 j.1 i.2.1 i.2.2 j.2.1 j.2.2) * vR j.1 j.2.2 j.2.1 c e) = _
  simp only [Fintype.sum_prod_type, Finset.sum_mul]
  refine Finset.sum_congr rfl fun q _ => ?_
  rw [Finset.sum_comm]
  simp only [Finset.sum_comm (s := (Finset.univ : Finset o)) (t := (Finset.univ : Finset ν))]
  refine Finset.sum_congr rfl fun p _ => ?_
  exact Finset.sum_comm

theorem kToR_lin {E : Type*} [AddCommGroup E] [Module ℂ E] (f : Lat n → E) (r : Lat n) :
    kToR f r = ∑ x, ((Fintype.card (Lat n) : ℂ)⁻¹ * ker (-x) r) • f x := by
  simp only [kToR, fftw_neg_one, Finset.smul_sum, mul_smul]

theorem kToR_scalar (vL vR : ν → T4 o ℂ) (M : Lat n → T6 ν o ℂ) (r : Lat n) (a b c e : o) :
    kToR (fun k => scalarProductPH vL (M k) vR) r a b c e = scalarProductPH vL (fun i j => kToR (fun k => M k i j) r) vR a b c e := by
  rw [kToR_entry4]
  simp only [scalarProductPH_apply, kToR_lin, smul_eq_mul, Finset.sum_apply, Pi.smul_apply, Finset.mul_sum, Finset.sum_mul]
  rw [Finset.sum_comm]
  refine Finset.sum_congr rfl fun q _ => ?_
  rw [Finset.sum_comm]
  refine Finset.sum_congr rfl fun p _ => ?_
  rw [Finset.sum_comm]
  refine Finset.sum_congr rfl fun k _ => ?_
  rw [Finset.sum_comm]
  refine Finset.sum_congr rfl fun l _ => ?_
  rw [Finset.sum_comm]
  refine Finset.sum_congr rfl fun i _ => ?_
  rw [Finset.sum_comm]
  refine Finset.sum_congr rfl fun j _ => Finset.sum_congr rfl fun x _ => ?_
  ring

theorem pull_if {I : Type*} [Fintype I] (P : Prop) (f : I → ℂ) : (∑ i, if P then f i else 0) = if P then ∑ i, f i else 0 := by
  by_cases hP : P
  · simp [hP]
  · simp [hP]

/-- a sum over four orbitals around two atoms -/
theorem sum_near4 (ha : Atoms c s) (x z : O) (F : o → o → o → o → ℂ) :
    (∑ k, ∑ l, ∑ i, ∑ j, if Near c s z k ∧ Near c s z l ∧ Near c s x i ∧ Near c s x j then F (c.orb l) (c.orb k) (c.orb i) (c.orb j) else 0)
      = ∑ k, ∑ l, ∑ i, ∑ j, if s.r (c.orb z) k ∧ s.r (c.orb z) l ∧ s.r (c.orb x) i ∧ s.r (c.orb x) j then F l k i j else 0 := by
  have h : ∀ {P Q A B : Prop} (t : ℂ), (if P ∧ Q ∧ A ∧ B then t else 0)
      = if P then if Q then if A then if B then t else 0 else 0 else 0 else 0 := by
    intro P Q A B t
    by_cases hP : P <;> by_cases hQ : Q <;> by_cases hA : A <;> by_cases hB : B <;> simp [hP, hQ, hA, hB]
  simp only [h, pull_if]
  rw [← sum_near ha z fun k => ∑ l, if s.r (c.orb z) l then ∑ i, if s.r (c.orb x) i then
    ∑ j, if s.r (c.orb x) j then F l k i j else 0 else 0 else 0]
  refine Finset.sum_congr rfl fun k _ => ?_
  congr 1
  rw [← sum_near ha z fun l => ∑ i, if s.r (c.orb x) i then ∑ j, if s.r (c.orb x) j then F l (c.orb k) i j else 0 else 0]
  refine Finset.sum_congr rfl fun l _ => ?_
  congr 1
  rw [← sum_near ha x fun i => ∑ j, if s.r (c.orb x) j then F (c.orb l) (c.orb k) i j else 0]
  refine Finset.sum_congr rfl fun i _ => ?_
  congr 1
  rw [← sum_near ha x fun j => F (c.orb l) (c.orb k) (c.orb i) j]

theorem scalar_pairOf (ha : Atoms c s) {f : Lat n → T6 ν o ℂ} {f' : Lat m → T6 ν O ℂ} (h : PairOf6 c s f f') {vL vR : ν → T4 o ℂ}
    (hL : ∀ i, Onsite s (vL i)) (hR : ∀ i, Onsite s (vR i)) :
    PairOf c s (fun k => scalarProductPH vL (f k) vR)
      fun K => scalarProductPH (fun i => place c s (vL i)) (f' K) fun i => place c s (vR i) := by
  intro R x y z u h1 h2
  rw [kToR_scalar, kToR_scalar, scalarProductPH_apply, scalarProductPH_apply]
  -- the two sums, restricted to the atoms
  have new : ∀ q p l k i j, place c s (vL p) i j y x * kToR (fun K => f' K p q) R i j k l * place c s (vR q) l k z u
      = if Near c s z k ∧ Near c s z l ∧ Near c s x i ∧ Near c s x j then
          vL p (c.orb i) (c.orb j) (c.orb y) (c.orb x) * kToR (fun k => f k p q) (c.emb R + c.pos z - c.pos x) (c.orb i) (c.orb j)
            (c.orb k) (c.orb l) * vR q (c.orb l) (c.orb k) (c.orb z) (c.orb u) else 0 := by
    intro q p l k i j
    by_cases hn : Near c s z k ∧ Near c s z l ∧ Near c s x i ∧ Near c s x j
    · obtain ⟨n2, n1, n3, n4⟩ := hn
      rw [if_pos ⟨n2, n1, n3, n4⟩, h p q R i j k l (n3.symm.trans n4) (n2.symm.trans n1)]
      unfold place
      rw [if_pos ⟨n3.symm.trans n4, n4.symm.trans h1, h1.symm⟩, if_pos ⟨n1.symm.trans n2, n2.symm, h2⟩, n2.1, n3.1]
    · rw [if_neg hn]
      unfold place
      by_cases c1 : Near c s i j ∧ Near c s j y ∧ Near c s y x
      · by_cases c2 : Near c s l k ∧ Near c s k z ∧ Near c s z u
        · exact absurd ⟨c2.2.1.symm, (c2.1.trans c2.2.1).symm, ((c1.1.trans c1.2.1).trans c1.2.2).symm, (c1.2.1.trans c1.2.2).symm⟩ hn
        · rw [if_neg c2, mul_zero]
      · rw [if_neg c1, zero_mul, zero_mul]
  have old : ∀ q p l k i j (T : ℂ), vL p i j (c.orb y) (c.orb x) * T * vR q l k (c.orb z) (c.orb u)
      = if s.r (c.orb z) k ∧ s.r (c.orb z) l ∧ s.r (c.orb x) i ∧ s.r (c.orb x) j then
          vL p i j (c.orb y) (c.orb x) * T * vR q l k (c.orb z) (c.orb u) else 0 := by
    intro q p l k i j T
    by_cases h0 : vL p i j (c.orb y) (c.orb x) * T * vR q l k (c.orb z) (c.orb u) = 0
    · rw [h0, ite_self]
    · have c1 := hL p _ _ _ _ (left_ne_zero_of_mul (left_ne_zero_of_mul h0))
      have c2 := hR q _ _ _ _ (right_ne_zero_of_mul h0)
      exact (if_pos ⟨s.symm c2.2.1, s.symm (s.trans c2.1 c2.2.1), s.symm (s.trans (s.trans c1.1 c1.2.1) c1.2.2),
        s.symm (s.trans c1.2.1 c1.2.2)⟩).symm
  have key : ∀ q p, (∑ k, ∑ l, ∑ i, ∑ j, place c s (vL p) i j y x * kToR (fun K => f' K p q) R i j k l * place c s (vR q) l k z u)
      = ∑ k, ∑ l, ∑ i, ∑ j, vL p i j (c.orb y) (c.orb x) * kToR (fun k => f k p q) (c.emb R + c.pos z - c.pos x) i j k l
        * vR q l k (c.orb z) (c.orb u) := by
    intro q p
    simp only [new q p]
    refine (sum_near4 ha x z fun l k i j => vL p i j (c.orb y) (c.orb x) * kToR (fun k => f k p q) (c.emb R + c.pos z - c.pos x) i j k l
        * vR q l k (c.orb z) (c.orb u)).trans ?_
    refine Finset.sum_congr rfl fun k _ => Finset.sum_congr rfl fun l _ => Finset.sum_congr rfl fun i _ => Finset.sum_congr rfl fun j _ => ?_
    exact (old q p l k i j _).symm
  exact Finset.sum_congr rfl fun q _ => Finset.sum_congr rfl fun p _ => key q p

/-! ## The lattice equations -/

open Verif.Dyson

variable {W : Type*} [DecidableEq W]

theorem on_mesh' {M : Type*} [AddCommMonoid M] {ranks : ℕ} (hr : 0 < ranks) {wmesh : List W} (hw : wmesh.Nodup) {kmesh : List (Lat n)}
    (hk : Full kmesh) (f : Lat n × W → M) (w : W) (k : Lat n) :
    distributedAssign ranks (prodMesh kmesh wmesh) f (k, w) = if w ∈ wmesh then f (k, w) else 0 := by
  rw [C02_distributedAssign ranks hr _ (prodMesh_nodup hk.nodup hw)]
  by_cases h : w ∈ wmesh
  · rw [if_pos (mem_prodMesh.2 ⟨hk.all k, h⟩), if_pos h]
  · rw [if_neg fun h' => h (mem_prodMesh.1 h').2, if_neg h]

/-- C128: the susceptibilities of the Bethe-Salpeter equation and of its dual form with vertices within the atoms. -/
theorem C128_lattice_bse (ha : Atoms c s) {ranks ranks' : ℕ} (hr : 0 < ranks) (hr' : 0 < ranks') (beta : ℂ) {wmesh : List W}
    (hw : wmesh.Nodup) {kmesh : List (Lat n)} (hk : Full kmesh) {kmesh' : List (Lat m)} (hk' : Full kmesh')
    (tail : W → Lat n → T4 o ℂ) (tail' : W → Lat m → T4 O ℂ) (ht : ∀ w, PairOf c s (tail w) (tail' w))
    (chi0 : W → ν → Lat n → T4 o ℂ) (chi0' : W → ν → Lat m → T4 O ℂ) (hc : ∀ w i, PairOf c s (chi0 w i) (chi0' w i))
    (gamma : W → T6 ν o ℂ) (hg : ∀ w i j, Onsite s (gamma w i j)) (L : W → ν → T4 o ℂ) (hL : ∀ w i, Onsite s (L w i))
    (imp : W → T4 o ℂ) (hi : ∀ w, Onsite s (imp w))
    (hu : ∀ k w, IsUnit (1 - chMat .PH (diagEmbed fun i => chi0 w i k) * chMat .PH (gamma w)).det) (w : W) :
    let gamma' : W → T6 ν O ℂ := fun w => place6 c s (gamma w)
    (PairOf6 c s (fun k => chiqFromChi0qAndGamma chi0 gamma k w) fun K => chiqFromChi0qAndGamma chi0' gamma' K w) ∧
      (PairOf c s (fun k => (solveLatticeBse ranks beta (prodMesh kmesh wmesh) (prodMesh wmesh kmesh) tail chi0 gamma).1 (k, w))
        fun K => (solveLatticeBse ranks' beta (prodMesh kmesh' wmesh) (prodMesh wmesh kmesh') tail' chi0' gamma').1 (K, w)) ∧
      (PairOf c s (fun k => (solveLatticeBse ranks beta (prodMesh kmesh wmesh) (prodMesh wmesh kmesh) tail chi0 gamma).2 (k, w))
        fun K => (solveLatticeBse ranks' beta (prodMesh kmesh' wmesh) (prodMesh wmesh kmesh') tail' chi0' gamma').2 (K, w)) ∧
      PairOf c s (fun k => solveLatticeDbse ranks (prodMesh kmesh wmesh) chi0 gamma L imp (k, w))
        fun K => solveLatticeDbse ranks' (prodMesh kmesh' wmesh) chi0' gamma' (fun w i => place c s (L w i)) (fun w => place c s (imp w))
          (K, w) := by
  intro gamma'
  have hb : PairOf6 c s (fun k => chiqFromChi0qAndGamma chi0 gamma k w) fun K => chiqFromChi0qAndGamma chi0' gamma' K w :=
    bse_pairOf ha (diag_pairOf (hc w)) (hg w) fun k => hu k w
  refine ⟨hb, ?_, ht w, ?_⟩
  · unfold solveLatticeBse chiqSumNuFromChi0qAndGamma chi0qSumNu
    simp only [on_mesh hr hw hk, on_mesh hr' hw hk', on_mesh' hr hw hk, on_mesh' hr' hw hk']
    refine ((trace_pairOf hb beta).ite _).add ((ht w).sub (PairOf.ite ?_ _))
    have h1 := (PairOf.sum Finset.univ fun i _ => hc w i).smul (beta * beta)⁻¹
    have e : (fun (k : Lat n) (x y z u : o) => (∑ i, chi0 w i k x y z u) / (beta * beta)) = fun k => (beta * beta)⁻¹ • ∑ i, chi0 w i k := by
      funext k x y z u
      simp only [Pi.smul_apply, Finset.sum_apply, smul_eq_mul]
      rw [div_eq_inv_mul]
    have e' : (fun (k : Lat m) (x y z u : O) => (∑ i, chi0' w i k x y z u) / (beta * beta)) = fun k => (beta * beta)⁻¹ • ∑ i, chi0' w i k := by
      funext k x y z u
      simp only [Pi.smul_apply, Finset.sum_apply, smul_eq_mul]
      rw [div_eq_inv_mul]
    rw [e, e']
    exact h1
  · unfold solveLatticeDbse chiqSumNuL
    simp only [on_mesh' hr hw hk, on_mesh' hr' hw hk']
    exact ((scalar_pairOf ha hb (hL w) (hL w)).ite _).add (place_pairOf ha (hi w))

end Verif.Supercell
