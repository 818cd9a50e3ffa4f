import Verif.Supercell.Vertex
import Verif.Lindhard.Props

/-!
# C128: the unit cell, functions of the bands
-/

set_option linter.unusedSectionVars false

noncomputable section

namespace Verif.Supercell

open Verif.Fourier Verif.Parallel Verif.Lindhard Matrix

variable {d d' : ℕ} {n : Fin d → ℕ} {m : Fin d' → ℕ} [∀ i, NeZero (n i)] [∀ i, NeZero (m i)] {o O : Type*} [Fintype o]
  [DecidableEq o] [Fintype O] [DecidableEq O] {c : Cell n m o O} {s : Setoid o}

/-- a function of two matrices by the projections on their eigenspaces -/
theorem dbl_projections (S : Finset ℝ) {p q : (o → ℝ) × Matrix o o ℂ} (hp : ∀ i, p.1 i ∈ S) (hq : ∀ i, q.1 i ∈ S) (h : ℝ → ℝ → ℂ)
    (a b c e : o) :
    dbl p q h a b c e = ∑ x ∈ S, ∑ y ∈ S, h x y * (matFun p (fun t => if t = x then 1 else 0) a e
      * matFun q (fun t => if t = y then 1 else 0) c b) := by
  simp only [matFun_apply, Finset.sum_mul_sum]
  simp only [Finset.mul_sum]
  unfold dbl
  have key : ∀ i j, (∑ x ∈ S, ∑ y ∈ S, h x y * (p.2 a i * (if p.1 i = x then 1 else 0) * p.2ᴴ i e
      * (q.2 c j * (if q.1 j = y then 1 else 0) * q.2ᴴ j b)))
      = p.2 a i * p.2ᴴ i e * q.2 c j * q.2ᴴ j b * h (p.1 i) (q.1 j) := by
    intro i j
    rw [Finset.sum_eq_single (p.1 i), Finset.sum_eq_single (q.1 j)]
    · rw [if_pos rfl, if_pos rfl]
      ring
    · intro y _ hy
      rw [if_neg (Ne.symm hy)]
      ring
    · exact fun h => absurd (hq j) h
    · intro x _ hx
      refine Finset.sum_eq_zero fun y _ => ?_
      rw [if_neg (Ne.symm hx)]
      ring
    · exact fun h => absurd (hp i) h
  have swap : (∑ x ∈ S, ∑ y ∈ S, ∑ i, ∑ j, h x y * (p.2 a i * (if p.1 i = x then 1 else 0) * p.2ᴴ i e
      * (q.2 c j * (if q.1 j = y then 1 else 0) * q.2ᴴ j b)))
      = ∑ i, ∑ j, ∑ x ∈ S, ∑ y ∈ S, h x y * (p.2 a i * (if p.1 i = x then 1 else 0) * p.2ᴴ i e
      * (q.2 c j * (if q.1 j = y then 1 else 0) * q.2ᴴ j b)) := by
    have h1 : ∀ x, (∑ y ∈ S, ∑ i, ∑ j, h x y * (p.2 a i * (if p.1 i = x then 1 else 0) * p.2ᴴ i e
        * (q.2 c j * (if q.1 j = y then 1 else 0) * q.2ᴴ j b)))
        = ∑ i, ∑ j, ∑ y ∈ S, h x y * (p.2 a i * (if p.1 i = x then 1 else 0) * p.2ᴴ i e
        * (q.2 c j * (if q.1 j = y then 1 else 0) * q.2ᴴ j b)) := by
      intro x
      rw [Finset.sum_comm]
      exact Finset.sum_congr rfl fun i _ => Finset.sum_comm
    simp only [h1]
    rw [Finset.sum_comm]
    exact Finset.sum_congr rfl fun i _ => Finset.sum_comm
  rw [swap]
  exact Finset.sum_congr rfl fun i _ => Finset.sum_congr rfl fun j _ => (key i j).symm

theorem kToR_bubble' (f g : Lat n → ℂ) (r : Lat n) :
    kToR (fun q => (Fintype.card (Lat n) : ℂ)⁻¹ * ∑ k, f k * g (k + q)) r = kToR g r * kToR f (-r) := by
  rw [← kToR_bubble]
  congr 1
  funext q
  congr 1
  refine Fintype.sum_equiv (Equiv.addRight q) _ _ fun k => ?_
  rw [Equiv.coe_addRight, add_sub_cancel_right, mul_comm]

/-- the Lindhard function between lattice vectors -/
theorem kToR_lindhard {ranks : ℕ} (hr : 0 < ranks) (eig : Eig o) (tol beta mu : ℝ) {kmesh : List (Lat n)} (hk : Full kmesh)
    (e : Lat n → Matrix o o ℂ) (z : ℂ) (S : Finset ℝ) (hS : ∀ k i, (sys eig mu e k).1 i ∈ S) (r : Lat n) (a b c f : o) :
    kToR (lindhard ranks eig tol beta mu kmesh e z) r a b c f
      = ∑ x ∈ S, ∑ y ∈ S, totalFactor tol beta z x y
        * (kToR (fun k => matFun (sys eig mu e k) fun t => if t = y then 1 else 0) r c b
          * kToR (fun k => matFun (sys eig mu e k) fun t => if t = x then 1 else 0) (-r) a f) := by
  rw [kToR_entry4]
  have h : (fun q => lindhard ranks eig tol beta mu kmesh e z q a b c f)
      = fun q => ∑ x ∈ S, ∑ y ∈ S, totalFactor tol beta z x y • ((Fintype.card (Lat n) : ℂ)⁻¹
        * ∑ k, matFun (sys eig mu e k) (fun t => if t = x then 1 else 0) a f
          * matFun (sys eig mu e (k + q)) (fun t => if t = y then 1 else 0) c b) := by
    funext q
    rw [lindhard_eq ranks hr eig tol beta mu kmesh hk.nodup hk.all]
    simp only [Pi.smul_apply, Finset.sum_apply, smul_eq_mul]
    simp only [dbl_projections S (hS _) (hS _)]
    simp only [Finset.mul_sum]
    rw [Finset.sum_comm]
    refine Finset.sum_congr rfl fun x _ => ?_
    rw [Finset.sum_comm]
    refine Finset.sum_congr rfl fun y _ => Finset.sum_congr rfl fun k _ => ?_
    ring
  rw [h]
  have hsum : ∀ (T : Finset ℝ) (F : ℝ → Lat n → ℂ), kToR (fun q => ∑ x ∈ T, F x q) r = ∑ x ∈ T, kToR (F x) r := by
    intro T F
    simp only [kToR_lin, Finset.smul_sum]
    exact Finset.sum_comm
  simp only [hsum]
  refine Finset.sum_congr rfl fun x _ => Finset.sum_congr rfl fun y _ => ?_
  rw [kToR_entry, kToR_entry, ← kToR_bubble']
  exact congrFun (Cell.kToR_smul' (totalFactor tol beta z x y) _) r

theorem up_sys {eig : Eig o} {eig' : Eig O} (hs : EigSpec eig) (hs' : EigSpec eig') (mu : ℝ) {e : Lat n → Matrix o o ℂ}
    (he : ∀ k, (e k).IsHermitian) (f : ℝ → ℂ) (K : Lat m) :
    matFun (sys eig' mu (c.up e) K) f = c.up (fun k => matFun (sys eig mu e k) f) K := by
  refine (c.up_matFun (X := fun k => e k - (mu : ℂ) • 1) (sys_diag hs mu he) (fun K => ?_) f K).symm
  rw [c.up_shift]
  exact sys_diag hs' mu (c.up_isHermitian he) K

/-- C128: the Lindhard function between pairs of orbitals at the same place and the real time Green's functions, with any
diagonalisation routines. -/
theorem C128_lindhard {ranks ranks' : ℕ} (hr : 0 < ranks) (hr' : 0 < ranks') {eig : Eig o} {eig' : Eig O} (hs : EigSpec eig)
    (hs' : EigSpec eig') (tol beta mu : ℝ) {kmesh : List (Lat n)} (hk : Full kmesh) {kmesh' : List (Lat m)} (hk' : Full kmesh')
    (e : Lat n → Matrix o o ℂ) (he : ∀ k, (e k).IsHermitian) (z : ℂ) :
    (∀ R x y u v, c.pos x = c.pos y → c.pos u = c.pos v → kToR (lindhard ranks' eig' tol beta mu kmesh' (c.up e) z) R x y u v
        = kToR (lindhard ranks eig tol beta mu kmesh e z) (c.emb R + c.pos u - c.pos x) (c.orb x) (c.orb y) (c.orb u) (c.orb v)) ∧
      (∀ K T, g0TkLes ranks' eig' beta kmesh' (c.up e) K T = c.up (fun k => g0TkLes ranks eig beta kmesh e k T) K) ∧
      ∀ K T, g0TkGtr ranks' eig' beta kmesh' (c.up e) K T = c.up (fun k => g0TkGtr ranks eig beta kmesh e k T) K := by
  have hT : ∀ (w : ℝ → ℂ) K T, g0T eig' beta w (c.up e K) T = c.up (fun k => g0T eig beta w (e k) T) K := by
    intro w K T
    have h1 := c.up_matFun (X := e) (p := fun k => eig (e k)) (q := fun K => eig' (c.up e K)) (fun k => hs _ (he k))
      (fun K => hs' _ (c.up_isHermitian he K)) (fun x => w (fermi (beta * x)) * Complex.exp (-Complex.I * x * T)) K
    have h2 : (fun k => (g0T eig beta w (e k) T : Matrix o o ℂ))
        = fun k => matFun (eig (e k)) fun x => w (fermi (beta * x)) * Complex.exp (-Complex.I * x * T) := by
      funext k a b
      exact g0T_eq eig beta w (e k) T a b
    funext x y
    rw [g0T_eq]
    rw [h2, h1]
  refine ⟨fun R x y u v hxy huv => ?_, fun K T => ?_, fun K T => ?_⟩
  · classical
    set S : Finset ℝ := (Finset.univ.image fun i : Lat n × o => (sys eig mu e i.1).1 i.2)
      ∪ Finset.univ.image fun i : Lat m × O => (sys eig' mu (c.up e) i.1).1 i.2 with hS
    have h1 : ∀ k i, (sys eig mu e k).1 i ∈ S := fun k i =>
      Finset.mem_union_left _ (Finset.mem_image.2 ⟨(k, i), Finset.mem_univ _, rfl⟩)
    have h2 : ∀ k i, (sys eig' mu (c.up e) k).1 i ∈ S := fun k i =>
      Finset.mem_union_right _ (Finset.mem_image.2 ⟨(k, i), Finset.mem_univ _, rfl⟩)
    rw [kToR_lindhard hr' eig' tol beta mu hk' _ z S h2, kToR_lindhard hr eig tol beta mu hk _ z S h1]
    refine Finset.sum_congr rfl fun x' _ => Finset.sum_congr rfl fun y' _ => ?_
    simp only [up_sys hs hs' mu he]
    have e1 : c.emb R + c.pos u - c.pos y = c.emb R + c.pos u - c.pos x := by rw [hxy]
    have e2 : c.emb (-R) + c.pos x - c.pos v = -(c.emb R + c.pos u - c.pos x) := by rw [map_neg, huv]; abel
    congr 2
    · change kToR (c.up fun k => matFun (sys eig mu e k) fun t => if t = y' then 1 else 0) R u y = _
      rw [c.kToR_up, ← e1]
      rfl
    · change kToR (c.up fun k => matFun (sys eig mu e k) fun t => if t = x' then 1 else 0) (-R) x v = _
      rw [c.kToR_up, ← e2]
      rfl
  · unfold g0TkLes
    rw [C02_distributedAssign ranks' hr' _ hk'.nodup, if_pos (hk'.all _)]
    have : ∀ k, distributedAssign ranks kmesh (fun k T => g0T eig beta (fun occ => Complex.I * occ) (e k) T) k T
        = g0T eig beta (fun occ => Complex.I * occ) (e k) T := fun k => by
      rw [C02_distributedAssign ranks hr _ hk.nodup, if_pos (hk.all _)]
    simp only [this]
    exact hT _ K T
  · unfold g0TkGtr
    rw [C02_distributedAssign ranks' hr' _ hk'.nodup, if_pos (hk'.all _)]
    have : ∀ k, distributedAssign ranks kmesh (fun k T => g0T eig beta (fun occ => -Complex.I * (1 - occ)) (e k) T) k T
        = g0T eig beta (fun occ => -Complex.I * (1 - occ)) (e k) T := fun k => by
      rw [C02_distributedAssign ranks hr _ hk.nodup, if_pos (hk.all _)]
    simp only [this]
    exact hT _ K T

end Verif.Supercell
