import Verif.Fourier.Lemmas
import Verif.Lindhard.Lemmas
import Mathlib.LinearAlgebra.Lagrange
import Mathlib.LinearAlgebra.Matrix.NonsingularInverse
import Mathlib.LinearAlgebra.Matrix.Trace

/-!
# Two descriptions of a crystal

Another unit cell for the same crystal: a larger one, or another assignment of the atoms to the cells.
-/

set_option linter.unusedSectionVars false

noncomputable section

namespace Verif.Supercell

open Verif.Fourier Verif.Lindhard Matrix

variable {d d' : ℕ} {n : Fin d → ℕ} {m : Fin d' → ℕ}

/-- Another choice of the unit cell. `emb` places the new cells on the old lattice, the orbital `x` of a new cell is the orbital
`orb x` in the old cell at `pos x`; every old orbital is found exactly once. -/
structure Cell (n : Fin d → ℕ) (m : Fin d' → ℕ) (o O : Type*) where
  /-- places of the new cells -/
  emb : Lat m →+ Lat n
  /-- place in the new cell -/
  pos : O → Lat n
  /-- the orbital -/
  orb : O → o
  bij : Function.Bijective fun x : Lat m × O => (emb x.1 + pos x.2, orb x.2)

variable {o O : Type*}

namespace Cell

variable (c : Cell n m o O)

/-- the other orientation: vectors from the second to the first orbital are counted backwards -/
def neg : Cell n m o O where
  emb := c.emb
  pos x := -c.pos x
  orb := c.orb
  bij := by
    have h : (fun x : Lat m × O => (c.emb x.1 + -c.pos x.2, c.orb x.2))
        = (fun y : Lat n × o => (-y.1, y.2)) ∘ (fun x : Lat m × O => (c.emb x.1 + c.pos x.2, c.orb x.2)) ∘ fun x => (-x.1, x.2) := by
      funext x
      simp only [Function.comp_apply, map_neg, Prod.mk.injEq, and_true]
      abel
    rw [h]
    have h1 : Function.Bijective fun y : Lat n × o => (-y.1, y.2) := (Equiv.prodCongr (Equiv.neg (Lat n)) (Equiv.refl o)).bijective
    have h2 : Function.Bijective fun y : Lat m × O => (-y.1, y.2) := (Equiv.prodCongr (Equiv.neg (Lat m)) (Equiv.refl O)).bijective
    exact h1.comp (c.bij.comp h2)

/-- a function of lattice vectors in the new description -/
def fold {E : Type*} (f : Lat n → o → o → E) : Lat m → O → O → E := fun R x y => f (c.emb R + c.pos x - c.pos y) (c.orb x) (c.orb y)

theorem fold_neg {E : Type*} (f : Lat n → o → o → E) (R : Lat m) (x y : O) :
    c.neg.fold f R x y = f (c.emb R + c.pos y - c.pos x) (c.orb x) (c.orb y) := by
  change f (c.emb R + -c.pos x - -c.pos y) (c.orb x) (c.orb y) = _
  congr 1
  abel

theorem inj {R S : Lat m} {x y : O} (h : c.emb R + c.pos x = c.emb S + c.pos y) (h' : c.orb x = c.orb y) : R = S ∧ x = y :=
  Prod.mk.inj (c.bij.1 (Prod.ext h h') : (R, x) = (S, y))

/-- same orbital, and no distance -/
theorem zero_iff (R : Lat m) (x y : O) : (c.emb R + c.pos x - c.pos y = 0 ∧ c.orb x = c.orb y) ↔ R = 0 ∧ x = y := by
  constructor
  · rintro ⟨h, h'⟩
    refine c.inj (S := 0) ?_ h'
    rw [map_zero, zero_add]
    exact sub_eq_zero.1 h
  · rintro ⟨rfl, rfl⟩
    simp

variable [∀ i, NeZero (n i)] [∀ i, NeZero (m i)] [Fintype o] [DecidableEq o] [Fintype O] [DecidableEq O]

theorem sum_bij {E : Type*} [AddCommMonoid E] (F : Lat n → o → E) :
    ∑ R, ∑ x, F (c.emb R + c.pos x) (c.orb x) = ∑ r, ∑ a, F r a := by
  rw [← Fintype.sum_prod_type', ← Fintype.sum_prod_type']
  exact c.bij.sum_comp fun y : Lat n × o => F y.1 y.2

/-- the sum over all orbitals, seen from the orbital `x` -/
theorem sum_from {E : Type*} [AddCommMonoid E] (F : Lat n → o → E) (x : Lat n) :
    ∑ S, ∑ z, F (c.emb S + x - c.pos z) (c.orb z) = ∑ r, ∑ a, F r a := by
  have h1 : ∑ S, ∑ z, F (c.emb S + x - c.pos z) (c.orb z) = ∑ S, ∑ z, F (x - (c.emb S + c.pos z)) (c.orb z) := by
    refine Fintype.sum_equiv (Equiv.neg (Lat m)) _ _ fun S => Finset.sum_congr rfl fun z _ => ?_
    rw [Equiv.neg_apply, map_neg]
    congr 1
    abel
  rw [h1, c.sum_bij fun r a => F (x - r) a]
  exact Fintype.sum_equiv (Equiv.subLeft x) _ _ fun r => rfl

/-- every orbital is found as often as a new cell contains old ones -/
theorem sum_orb (F : o → ℂ) : (Fintype.card (Lat m) : ℂ) * ∑ x, F (c.orb x) = (Fintype.card (Lat n) : ℂ) * ∑ a, F a := by
  have h := c.sum_bij fun _ a => F a
  simp only [Finset.sum_const, Finset.card_univ, nsmul_eq_mul] at h
  exact h

end Cell

section Conv

variable [∀ i, NeZero (n i)] [Fintype o] [DecidableEq o]

/-- convolution on the lattice -/
def conv (f g : Lat n → Matrix o o ℂ) : Lat n → Matrix o o ℂ := fun r => ∑ s, f s * g (r - s)

theorem rToK_conv (f g : Lat n → Matrix o o ℂ) (k : Lat n) : rToK (conv f g) k = rToK f k * rToK g k := by
  simp only [rToK, fftw_one, conv, Finset.smul_sum, Finset.sum_mul_sum]
  rw [Finset.sum_comm]
  refine Finset.sum_congr rfl fun s _ => ?_
  refine Fintype.sum_equiv (Equiv.subRight s) _ _ fun r => ?_
  rw [Equiv.subRight_apply, smul_mul_smul_comm, ← ker_add_left, add_sub_cancel]

theorem kToR_mul (f g : Lat n → Matrix o o ℂ) : kToR (fun k => f k * g k) = conv (kToR f) (kToR g) := by
  rw [← kToR_rToK (conv (kToR f) (kToR g))]
  congr 1
  funext k
  rw [rToK_conv, rToK_kToR, rToK_kToR]

/-- the unit of the convolution -/
def delta : Lat n → Matrix o o ℂ := fun r => if r = 0 then 1 else 0

theorem rToK_delta (k : Lat n) : rToK (delta : Lat n → Matrix o o ℂ) k = 1 := by
  simp only [rToK, fftw_one, delta]
  rw [Finset.sum_eq_single 0 (fun r _ h => by rw [if_neg h, smul_zero]) fun h => absurd (Finset.mem_univ _) h, if_pos rfl,
    ker_zero_left, one_smul]

theorem kToR_one : kToR (fun _ : Lat n => (1 : Matrix o o ℂ)) = delta := by
  rw [← kToR_rToK delta]
  congr 1
  funext k
  rw [rToK_delta]

theorem kToR_conjTranspose (f : Lat n → Matrix o o ℂ) (r : Lat n) : kToR (fun k => (f k)ᴴ) r = (kToR f (-r))ᴴ := by
  have hs : ∀ x : Lat n, (starRingEnd ℂ) (ker (-x) (-r)) = ker (-x) r := fun x => by
    rw [ker_neg_neg]
    have h1 : ∀ i, (starRingEnd ℂ) (ZMod.stdAddChar (x i * r i)) = ZMod.stdAddChar ((-x) i * r i) := fun i => by
      rw [Pi.neg_apply, neg_mul, AddChar.map_neg_eq_conj]
    rw [ker, ker, map_prod]
    exact Finset.prod_congr rfl fun i _ => h1 i
  simp only [kToR, fftw_neg_one, conjTranspose_smul, conjTranspose_sum]
  congr 1
  · simp
  · exact Finset.sum_congr rfl fun x _ => by rw [← hs x]; rfl

end Conv

namespace Cell

variable (c : Cell n m o O) [∀ i, NeZero (n i)] [∀ i, NeZero (m i)] [Fintype o] [DecidableEq o] [Fintype O] [DecidableEq O]

/-- the same for matrices -/
def foldM (f : Lat n → Matrix o o ℂ) : Lat m → Matrix O O ℂ := c.fold f

theorem foldM_conv (f g : Lat n → Matrix o o ℂ) : c.foldM (conv f g) = conv (c.foldM f) (c.foldM g) := by
  funext R
  ext x y
  change (∑ s, f s * g (c.emb R + c.pos x - c.pos y - s)) (c.orb x) (c.orb y) = (∑ S, c.foldM f S * c.foldM g (R - S)) x y
  rw [Matrix.sum_apply, Matrix.sum_apply]
  simp only [Matrix.mul_apply]
  rw [← c.sum_from (fun s a => f s (c.orb x) a * g (c.emb R + c.pos x - c.pos y - s) a (c.orb y)) (c.pos x)]
  refine Finset.sum_congr rfl fun S _ => Finset.sum_congr rfl fun z _ => ?_
  change _ = f (c.emb S + c.pos x - c.pos z) (c.orb x) (c.orb z) * g (c.emb (R - S) + c.pos z - c.pos y) (c.orb z) (c.orb y)
  rw [map_sub]
  congr 2
  abel

theorem foldM_delta : c.foldM delta = delta := by
  funext R
  ext x y
  change (delta (c.emb R + c.pos x - c.pos y) : Matrix o o ℂ) (c.orb x) (c.orb y) = (delta R : Matrix O O ℂ) x y
  unfold delta
  have h := c.zero_iff R x y
  by_cases h1 : R = 0 ∧ x = y
  · obtain ⟨h2, h3⟩ := h.2 h1
    rw [if_pos h2, if_pos h1.1, h3, h1.2, Matrix.one_apply_eq, Matrix.one_apply_eq]
  · have h2 := fun z => h1 (h.1 z)
    have e1 : (if c.emb R + c.pos x - c.pos y = 0 then (1 : Matrix o o ℂ) else 0) (c.orb x) (c.orb y) = 0 := by
      by_cases h3 : c.emb R + c.pos x - c.pos y = 0
      · rw [if_pos h3, Matrix.one_apply_ne fun h4 => h2 ⟨h3, h4⟩]
      · rw [if_neg h3, Matrix.zero_apply]
    have e2 : (if R = 0 then (1 : Matrix O O ℂ) else 0) x y = 0 := by
      by_cases h3 : R = 0
      · rw [if_pos h3, Matrix.one_apply_ne fun h4 => h1 ⟨h3, h4⟩]
      · rw [if_neg h3, Matrix.zero_apply]
    rw [e1, e2]

/-- a function of momentum in the new description -/
def up (f : Lat n → Matrix o o ℂ) : Lat m → Matrix O O ℂ := rToK (c.foldM (kToR f))

theorem kToR_up (f : Lat n → Matrix o o ℂ) : kToR (c.up f) = c.foldM (kToR f) := kToR_rToK _

theorem up_mul (f g : Lat n → Matrix o o ℂ) (K : Lat m) : c.up (fun k => f k * g k) K = c.up f K * c.up g K := by
  unfold up
  rw [kToR_mul, foldM_conv, rToK_conv]

theorem up_one (K : Lat m) : c.up (fun _ => 1) K = 1 := by
  unfold up
  rw [kToR_one, foldM_delta, rToK_delta]

theorem foldM_add (f g : Lat n → Matrix o o ℂ) : c.foldM (fun r => f r + g r) = fun R => c.foldM f R + c.foldM g R := rfl

theorem foldM_smul (z : ℂ) (f : Lat n → Matrix o o ℂ) : c.foldM (fun r => z • f r) = fun R => z • c.foldM f R := rfl

theorem kToR_add' {E : Type*} [AddCommGroup E] [Module ℂ E] (f g : Lat n → E) :
    kToR (fun k => f k + g k) = fun r => kToR f r + kToR g r := by
  funext r
  simp only [kToR, fftw, smul_add, Finset.sum_add_distrib]

theorem rToK_add' {E : Type*} [AddCommGroup E] [Module ℂ E] (f g : Lat n → E) :
    rToK (fun k => f k + g k) = fun r => rToK f r + rToK g r := by
  funext r
  simp only [rToK, fftw, smul_add, Finset.sum_add_distrib]

theorem kToR_smul' {E : Type*} [AddCommGroup E] [Module ℂ E] (z : ℂ) (f : Lat n → E) : kToR (fun k => z • f k) = fun r => z • kToR f r := by
  funext r
  simp only [kToR, fftw, Finset.smul_sum]
  exact Finset.sum_congr rfl fun x _ => by rw [smul_comm z, smul_comm z]

theorem rToK_smul' {E : Type*} [AddCommGroup E] [Module ℂ E] (z : ℂ) (f : Lat n → E) : rToK (fun k => z • f k) = fun r => z • rToK f r := by
  funext r
  simp only [rToK, fftw, Finset.smul_sum]
  exact Finset.sum_congr rfl fun x _ => by rw [smul_comm z]

theorem up_add (f g : Lat n → Matrix o o ℂ) (K : Lat m) : c.up (fun k => f k + g k) K = c.up f K + c.up g K := by
  unfold up
  rw [kToR_add', foldM_add, rToK_add']

theorem up_smul (z : ℂ) (f : Lat n → Matrix o o ℂ) (K : Lat m) : c.up (fun k => z • f k) K = z • c.up f K := by
  unfold up
  rw [kToR_smul', foldM_smul, rToK_smul']

/-- the new description of functions of momentum keeps sums and products -/
def upHom : (Lat n → Matrix o o ℂ) →ₐ[ℂ] (Lat m → Matrix O O ℂ) :=
  AlgHom.ofLinearMap
    { toFun := c.up
      map_add' := fun f g => funext fun K => c.up_add f g K
      map_smul' := fun z f => funext fun K => c.up_smul z f K }
    (funext fun K => c.up_one K) fun f g => funext fun K => c.up_mul f g K

theorem up_zero (K : Lat m) : c.up (fun _ => 0) K = 0 := congrFun (map_zero c.upHom) K

theorem up_sub (f g : Lat n → Matrix o o ℂ) (K : Lat m) : c.up (fun k => f k - g k) K = c.up f K - c.up g K :=
  congrFun (map_sub c.upHom f g) K

theorem up_neg (f : Lat n → Matrix o o ℂ) (K : Lat m) : c.up (fun k => -f k) K = -c.up f K :=
  congrFun (map_neg c.upHom f) K

theorem up_inv {f : Lat n → Matrix o o ℂ} (h : ∀ k, IsUnit (f k).det) (K : Lat m) :
    IsUnit (c.up f K).det ∧ c.up (fun k => (f k)⁻¹) K = (c.up f K)⁻¹ := by
  have h1 : c.up f K * c.up (fun k => (f k)⁻¹) K = 1 := by
    rw [← up_mul, ← c.up_one K]
    congr 1
    funext k
    exact Matrix.mul_nonsing_inv _ (h k)
  exact ⟨(Matrix.isUnit_iff_isUnit_det _).1 (IsUnit.of_mul_eq_one _ h1), (Matrix.inv_eq_right_inv h1).symm⟩

theorem up_conjTranspose (f : Lat n → Matrix o o ℂ) (K : Lat m) : c.up (fun k => (f k)ᴴ) K = (c.up f K)ᴴ := by
  have h : kToR (c.up fun k => (f k)ᴴ) = kToR fun K => (c.up f K)ᴴ := by
    funext R
    rw [kToR_up, kToR_conjTranspose, kToR_up]
    ext x y
    change kToR (fun k => (f k)ᴴ) (c.emb R + c.pos x - c.pos y) (c.orb x) (c.orb y)
      = star (kToR f (c.emb (-R) + c.pos y - c.pos x) (c.orb y) (c.orb x))
    rw [kToR_conjTranspose, Matrix.conjTranspose_apply, map_neg]
    have e : -(c.emb R + c.pos x - c.pos y) = -c.emb R + c.pos y - c.pos x := by abel
    rw [e]
  have h2 := congrArg (fun F => rToK F K) h
  simp only [rToK_kToR] at h2
  exact h2

theorem up_isHermitian {f : Lat n → Matrix o o ℂ} (h : ∀ k, (f k).IsHermitian) (K : Lat m) : (c.up f K).IsHermitian := by
  unfold Matrix.IsHermitian
  rw [← up_conjTranspose]
  congr 1
  funext k
  exact h k

theorem up_injective {f g : Lat n → Matrix o o ℂ} (h : c.up f = c.up g) : f = g := by
  have h1 : c.foldM (kToR f) = c.foldM (kToR g) := by rw [← kToR_up, ← kToR_up, h]
  rw [← rToK_kToR f, ← rToK_kToR g]
  congr 1
  funext r
  ext a b
  obtain ⟨⟨S, y⟩, hy⟩ := c.bij.2 (0, b)
  obtain ⟨⟨R, x⟩, hx⟩ := c.bij.2 (r, a)
  obtain ⟨hy1, hy2⟩ := Prod.mk.inj hy
  obtain ⟨hx1, hx2⟩ := Prod.mk.inj hx
  have := congrFun (congrFun (congrFun h1 (R - S)) x) y
  change kToR f (c.emb (R - S) + c.pos x - c.pos y) (c.orb x) (c.orb y) = kToR g (c.emb (R - S) + c.pos x - c.pos y) (c.orb x) (c.orb y) at this
  have e : c.emb (R - S) + c.pos x - c.pos y = r := by
    have : c.emb (R - S) + c.pos x - c.pos y = (c.emb R + c.pos x) - (c.emb S + c.pos y) := by rw [map_sub]; abel
    rw [this]
    dsimp only at hx1 hy1
    rw [hx1, hy1, sub_zero]
  dsimp only at hx2 hy2
  rwa [e, hx2, hy2] at this

theorem sum_kToR (g : Lat n → ℂ) : ∑ k, g k = (Fintype.card (Lat n) : ℂ) * kToR g 0 := by
  simp only [kToR, fftw_neg_one, ker_zero_right, smul_eq_mul, one_mul]
  rw [mul_inv_cancel_left₀ card_ne_zero']

theorem trace_kToR (g : Lat n → Matrix o o ℂ) : kToR (fun k => (g k).trace) 0 = (kToR g 0).trace := by
  simp only [kToR, fftw, Matrix.trace_smul, Matrix.trace_sum]

/-- averages over the zone of traces count the old cells in a new one -/
theorem trace_up (f : Lat n → Matrix o o ℂ) : ∑ K, (c.up f K).trace = ∑ k, (f k).trace := by
  rw [sum_kToR, sum_kToR, trace_kToR, trace_kToR, kToR_up]
  refine Eq.trans ?_ (c.sum_orb fun a => kToR f 0 a a)
  congr 1
  refine Finset.sum_congr rfl fun x _ => ?_
  change kToR f (c.emb 0 + c.pos x - c.pos x) (c.orb x) (c.orb x) = _
  rw [map_zero, zero_add, sub_self]

end Cell

section Functions

variable [Fintype o] [DecidableEq o]

theorem matFun_mul {X : Matrix o o ℂ} {p : (o → ℝ) × Matrix o o ℂ} (hp : Diag X p) (f g : ℝ → ℂ) :
    matFun p (fun x => f x * g x) = matFun p f * matFun p g := by
  unfold matFun
  have h : p.2 * diagonal (fun i => f (p.1 i)) * p.2ᴴ * (p.2 * diagonal (fun i => g (p.1 i)) * p.2ᴴ)
      = p.2 * diagonal (fun i => f (p.1 i)) * (p.2ᴴ * p.2) * (diagonal (fun i => g (p.1 i)) * p.2ᴴ) := by noncomm_ring
  rw [h, hp.1, mul_one, ← mul_assoc, mul_assoc p.2 (diagonal fun i => f (p.1 i)), diagonal_mul_diagonal]

theorem matFun_poly {X : Matrix o o ℂ} {p : (o → ℝ) × Matrix o o ℂ} (hp : Diag X p) (P : Polynomial ℂ) :
    matFun p (fun x => P.eval (x : ℂ)) = Polynomial.aeval X P := by
  induction P using Polynomial.induction_on' with
  | add P Q h1 h2 =>
    rw [map_add, ← h1, ← h2]
    unfold matFun
    simp only [Polynomial.eval_add]
    rw [← add_mul, ← mul_add, diagonal_add]
  | monomial k z =>
    rw [Polynomial.aeval_monomial]
    simp only [Polynomial.eval_monomial]
    rw [matFun_mul hp]
    congr 1
    · unfold matFun
      rw [Algebra.algebraMap_eq_smul_one, ← hp.2.1, ← mul_smul_one z]
      have : (diagonal fun _ : o => z) = z • (1 : Matrix o o ℂ) := by rw [smul_one_eq_diagonal]
      rw [this]
      simp
    · induction k with
      | zero => simpa using matFun_one hp
      | succ k ih =>
        simp only [pow_succ]
        rw [matFun_mul hp, ih]
        congr 1
        exact hp.2.2.symm

/-- a polynomial that takes given values at finitely many real places -/
theorem exists_poly (S : Finset ℝ) (f : ℝ → ℂ) : ∃ P : Polynomial ℂ, ∀ x ∈ S, P.eval (x : ℂ) = f x :=
  ⟨Lagrange.interpolate S (fun x => (x : ℂ)) f, fun _ hx =>
    Lagrange.eval_interpolate_at_node f (fun _ _ _ _ h => Complex.ofReal_injective h) hx⟩

theorem matFun_congr {p : (o → ℝ) × Matrix o o ℂ} {f g : ℝ → ℂ} (h : ∀ i, f (p.1 i) = g (p.1 i)) : matFun p f = matFun p g := by
  unfold matFun
  simp only [h]

end Functions

namespace Cell

variable (c : Cell n m o O) [∀ i, NeZero (n i)] [∀ i, NeZero (m i)] [Fintype o] [DecidableEq o] [Fintype O] [DecidableEq O]

theorem up_aeval (X : Lat n → Matrix o o ℂ) (P : Polynomial ℂ) (K : Lat m) :
    c.up (fun k => Polynomial.aeval (X k) P) K = Polynomial.aeval (c.up X K) P := by
  have h1 : (fun k => Polynomial.aeval (X k) P) = Polynomial.aeval X P := by
    funext k
    exact (Polynomial.aeval_algHom_apply (Pi.evalAlgHom ℂ (fun _ : Lat n => Matrix o o ℂ) k) X P)
  have h2 : c.upHom (Polynomial.aeval X P) = Polynomial.aeval (c.upHom X) P := (Polynomial.aeval_algHom_apply c.upHom X P).symm
  rw [h1]
  refine (congrFun h2 K).trans ?_
  exact (Polynomial.aeval_algHom_apply (Pi.evalAlgHom ℂ (fun _ : Lat m => Matrix O O ℂ) K) (c.upHom X) P).symm

/-- functions of Hermitian matrices in the new description -/
theorem up_matFun {X : Lat n → Matrix o o ℂ} {p : Lat n → (o → ℝ) × Matrix o o ℂ} {q : Lat m → (O → ℝ) × Matrix O O ℂ}
    (hp : ∀ k, Diag (X k) (p k)) (hq : ∀ K, Diag (c.up X K) (q K)) (f : ℝ → ℂ) (K : Lat m) :
    c.up (fun k => matFun (p k) f) K = matFun (q K) f := by
  classical
  obtain ⟨P, hP⟩ := exists_poly ((Finset.univ.image fun x : Lat n × o => (p x.1).1 x.2) ∪ Finset.univ.image fun x : Lat m × O => (q x.1).1 x.2) f
  have h1 : ∀ k, matFun (p k) f = Polynomial.aeval (X k) P := fun k => by
    rw [← matFun_poly (hp k)]
    exact matFun_congr fun i => (hP _ (Finset.mem_union_left _ (Finset.mem_image.2 ⟨(k, i), Finset.mem_univ _, rfl⟩))).symm
  have h2 : ∀ K, matFun (q K) f = Polynomial.aeval (c.up X K) P := fun K => by
    rw [← matFun_poly (hq K)]
    exact matFun_congr fun i => (hP _ (Finset.mem_union_right _ (Finset.mem_image.2 ⟨(K, i), Finset.mem_univ _, rfl⟩))).symm
  simp only [h1]
  rw [up_aeval, h2]

theorem up_shift (X : Lat n → Matrix o o ℂ) (z : ℂ) (K : Lat m) : c.up (fun k => X k - z • 1) K = c.up X K - z • 1 := by
  rw [up_sub, up_smul, up_one]

end Cell

end Verif.Supercell
