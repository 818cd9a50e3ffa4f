import Verif.Supercell.Pairs
import Verif.Dyson.Props
import Verif.Bubble.Model
import Verif.Rpa.Props
import Verif.Bse.Lemmas
import Verif.Parallel.Props

/-!
# C128: results do not depend on the choice of the unit cell

The same crystal can be described with different unit cells: with larger ones, or with another assignment of the atoms to the
cells. The results must be the same functions of the places of the atoms.
-/

set_option linter.unusedSectionVars false

noncomputable section

namespace Verif.Supercell

open Verif.Fourier Verif.Parallel Matrix

variable {d d' : ℕ} {n : Fin d → ℕ} {m : Fin d' → ℕ} [∀ i, NeZero (n i)] [∀ i, NeZero (m i)] {o O : Type*} [Fintype o]
  [DecidableEq o] [Fintype O] [DecidableEq O] {c : Cell n m o O} {s : Setoid o}

/-- a mesh with all its points, each once -/
structure Full (mesh : List (Lat n)) : Prop where
  nodup : mesh.Nodup
  all : ∀ k, k ∈ mesh

theorem Full.length {mesh : List (Lat n)} (h : Full mesh) : mesh.length = Fintype.card (Lat n) := by
  rw [← List.toFinset_card_of_nodup h.nodup, ← Finset.card_univ]
  congr 1
  ext k
  simp [h.all k]

theorem Full.sum {E : Type*} [AddCommMonoid E] {mesh : List (Lat n)} (h : Full mesh) (f : Lat n → E) : (mesh.map f).sum = ∑ k, f k := by
  rw [← List.sum_toFinset f h.nodup]
  congr 1
  ext k
  simp [h.all k]

/-! ## Dyson equation -/

section Dyson

open Verif.Dyson

variable {W : Type*} [DecidableEq W]

theorem on_mesh {M : Type*} [AddCommMonoid M] {ranks : ℕ} (hr : 0 < ranks) {wmesh : List W} (hw : wmesh.Nodup) {kmesh : List (Lat n)}
    (hk : Full kmesh) (f : W × Lat n → M) (w : W) (k : Lat n) :
    distributedAssign ranks (prodMesh wmesh kmesh) f (w, k) = if w ∈ wmesh then f (w, k) else 0 := by
  rw [C02_distributedAssign ranks hr _ (prodMesh_nodup hw hk.nodup)]
  by_cases h : w ∈ wmesh
  · rw [if_pos (mem_prodMesh.2 ⟨h, hk.all k⟩), if_pos h]
  · rw [if_neg fun h' => h (mem_prodMesh.1 h').1, if_neg h]

theorem kToR_entry (f : Lat n → Matrix o o ℂ) (r : Lat n) (a b : o) : kToR f r a b = kToR (fun k => f k a b) r := by
  simp only [kToR, fftw, Matrix.smul_apply, Matrix.sum_apply]

theorem up_resolvent {e : Lat n → Matrix o o ℂ} {σ : Lat n → Matrix o o ℂ} {σ' : Lat m → Matrix O O ℂ} (hσ : ∀ K, σ' K = c.up σ K)
    (z : ℂ) (h : ∀ k, IsUnit (z • (1 : Matrix o o ℂ) - e k - σ k).det) (K : Lat m) :
    (z • (1 : Matrix O O ℂ) - c.up e K - σ' K)⁻¹ = c.up (fun k => (z • (1 : Matrix o o ℂ) - e k - σ k)⁻¹) K := by
  have h1 := (c.up_inv h K).2
  rw [c.up_sub, c.up_sub, c.up_smul, c.up_one, ← hσ K] at h1
  exact h1.symm

/-- C128: the Green's functions of the Dyson equation, as functions of momentum and local ones. -/
theorem C128_dyson {ranks ranks' : ℕ} (hr : 0 < ranks) (hr' : 0 < ranks') (mu : ℂ) (val : W → ℂ) {wmesh : List W} (hw : wmesh.Nodup)
    {kmesh : List (Lat n)} (hk : Full kmesh) {kmesh' : List (Lat m)} (hk' : Full kmesh') (e : Lat n → Matrix o o ℂ)
    (sigma : Sigma W (Lat n) o ℂ) (sigma' : Sigma W (Lat m) O ℂ) (hs : ∀ w K, sigma'.term w K = c.up (sigma.term w) K) (idelta : ℂ)
    (h0 : ∀ w ∈ wmesh, ∀ k, IsUnit ((val w + mu) • (1 : Matrix o o ℂ) - e k).det)
    (h1 : ∀ w ∈ wmesh, ∀ k, IsUnit ((val w + idelta + mu) • (1 : Matrix o o ℂ) - e k - sigma.term w k).det) :
    (∀ w K, latticeDysonG0Xk ranks' mu val wmesh kmesh' (c.up e) (w, K)
        = c.up (fun k => latticeDysonG0Xk ranks mu val wmesh kmesh e (w, k)) K) ∧
      (∀ w K, latticeDysonGXk ranks' mu val wmesh kmesh' (c.up e) sigma' idelta (w, K)
        = c.up (fun k => latticeDysonGXk ranks mu val wmesh kmesh e sigma idelta (w, k)) K) ∧
      ∀ w x y, c.pos x = c.pos y → latticeDysonGX ranks' mu val wmesh kmesh' (c.up e) sigma' idelta w x y
        = latticeDysonGX ranks mu val wmesh kmesh e sigma idelta w (c.orb x) (c.orb y) := by
  have hG : ∀ w K, latticeDysonGXk ranks' mu val wmesh kmesh' (c.up e) sigma' idelta (w, K)
      = c.up (fun k => latticeDysonGXk ranks mu val wmesh kmesh e sigma idelta (w, k)) K := by
    intro w K
    unfold latticeDysonGXk
    simp only [on_mesh hr hw hk, on_mesh hr' hw hk']
    by_cases h : w ∈ wmesh
    · simp only [if_pos h]
      exact up_resolvent (hs w) _ (h1 w h) K
    · simp only [if_neg h]
      exact (c.up_zero K).symm
  refine ⟨fun w K => ?_, hG, fun w x y hxy => ?_⟩
  · unfold latticeDysonG0Xk
    simp only [on_mesh hr hw hk, on_mesh hr' hw hk']
    by_cases h : w ∈ wmesh
    · simp only [if_pos h]
      have := up_resolvent (c := c) (e := e) (σ := fun _ => 0) (σ' := fun _ => 0) (fun K => (c.up_zero K).symm) (val w + mu)
        (fun k => by rw [sub_zero]; exact h0 w h k) K
      simp only [sub_zero] at this
      exact this
    · simp only [if_neg h]
      exact (c.up_zero K).symm
  · have hloc : ∀ {d : ℕ} {n : Fin d → ℕ} [∀ i, NeZero (n i)] (g : Lat n → ℂ), kToR g 0 = (Fintype.card (Lat n) : ℂ)⁻¹ * ∑ k, g k := by
      intro d n _ g
      rw [Cell.sum_kToR, inv_mul_cancel_left₀ card_ne_zero']
    have e1 : latticeDysonGX ranks mu val wmesh kmesh e sigma idelta w (c.orb x) (c.orb y)
        = kToR (fun k => latticeDysonGXk ranks mu val wmesh kmesh e sigma idelta (w, k)) 0 (c.orb x) (c.orb y) := by
      unfold latticeDysonGX latticeDysonGXk
      simp only [on_mesh hr hw hk]
      rw [C02_distributedAccumulate ranks hr, hk.length, hk.sum, kToR_entry, hloc, Matrix.smul_apply, Matrix.sum_apply, smul_eq_mul]
    have e2 : latticeDysonGX ranks' mu val wmesh kmesh' (c.up e) sigma' idelta w x y
        = kToR (fun K => latticeDysonGXk ranks' mu val wmesh kmesh' (c.up e) sigma' idelta (w, K)) 0 x y := by
      unfold latticeDysonGX latticeDysonGXk
      simp only [on_mesh hr' hw hk']
      rw [C02_distributedAccumulate ranks' hr', hk'.length, hk'.sum, kToR_entry, hloc, Matrix.smul_apply, Matrix.sum_apply, smul_eq_mul]
    rw [e1, e2]
    simp only [hG]
    rw [c.kToR_up]
    change kToR (fun k => latticeDysonGXk ranks mu val wmesh kmesh e sigma idelta (w, k)) (c.emb 0 + c.pos x - c.pos y) (c.orb x)
      (c.orb y) = _
    rw [map_zero, zero_add, hxy, sub_self]

/-- a self energy within the atoms, in both descriptions -/
theorem local_term (ha : Atoms c s) {t : W → Matrix o o ℂ} (ht : ∀ w a b, t w a b ≠ 0 → s.r a b) (w : W) (K : Lat m) :
    (Sigma.local fun w => place1 c s (t w) : Sigma W (Lat m) O ℂ).term w K
      = c.up ((Sigma.local t : Sigma W (Lat n) o ℂ).term w) K := (up_const ha (ht w) K).symm

end Dyson

/-! ## Bubbles -/

section Bubble

open Verif.Bubble

theorem kToR_entry2 (f : Lat n → o → o → ℂ) (r : Lat n) (a b : o) : kToR f r a b = kToR (fun k => f k a b) r := by
  simp only [kToR, fftw, Pi.smul_apply, Finset.sum_apply]

theorem kToR_entry4 (f : Lat n → o → o → o → o → ℂ) (r : Lat n) (x y z u : o) :
    kToR f r x y z u = kToR (fun k => f k x y z u) r := by
  simp only [kToR, fftw, Pi.smul_apply, Finset.sum_apply]

/-- the product of two functions of momentum, summed over the zone, is a product of functions of the lattice vector -/
theorem kToR_bubble (f g : Lat n → ℂ) (r : Lat n) :
    kToR (fun q => (Fintype.card (Lat n) : ℂ)⁻¹ * ∑ k, f k * g (k - q)) r = kToR f r * kToR g (-r) := by
  have h : (fun q => (Fintype.card (Lat n) : ℂ)⁻¹ * ∑ k, f k * g (k - q)) = rToK fun r => kToR f r * kToR g (-r) := by
    funext q
    have hf : ∀ k, f k = rToK (kToR f) k := fun k => by rw [rToK_kToR]
    simp only [rToK, fftw_one, smul_eq_mul]
    have h1 : ∀ r, kToR g (-r) = (Fintype.card (Lat n) : ℂ)⁻¹ * ∑ k, ker (k - q) r * g (k - q) := by
      intro r
      simp only [kToR, fftw_neg_one, smul_eq_mul]
      congr 1
      refine (Fintype.sum_equiv (Equiv.subRight q) _ _ fun k => ?_).symm
      rw [Equiv.subRight_apply, ker_neg_neg]
    simp only [h1]
    have h2 : ∀ k, f k = ∑ r, ker r k * kToR f r := fun k => by
      have := hf k
      simp only [rToK, fftw_one, smul_eq_mul] at this
      exact this
    calc (Fintype.card (Lat n) : ℂ)⁻¹ * ∑ k, f k * g (k - q)
        = (Fintype.card (Lat n) : ℂ)⁻¹ * ∑ k, ∑ r, ker r k * kToR f r * g (k - q) := by
          congr 1
          refine Finset.sum_congr rfl fun k _ => ?_
          rw [← Finset.sum_mul, ← h2]
      _ = (Fintype.card (Lat n) : ℂ)⁻¹ * ∑ r, ∑ k, ker r k * kToR f r * g (k - q) := by rw [Finset.sum_comm]
      _ = ∑ r, ker r q * (kToR f r * ((Fintype.card (Lat n) : ℂ)⁻¹ * ∑ k, ker (k - q) r * g (k - q))) := by
          simp only [Finset.mul_sum]
          refine Finset.sum_congr rfl fun r _ => Finset.sum_congr rfl fun k _ => ?_
          have : ker r k = ker r q * ker (k - q) r := by rw [ker_comm (k - q), ← ker_add_right, add_sub_cancel]
          rw [this]
          ring
  rw [h, kToR_rToK]

/-- C128: the bubbles of functions of lattice vectors and of momentum, between pairs of orbitals at the same place. -/
theorem C128_bubble {ranks ranks' : ℕ} (hr : 0 < ranks) (hr' : 0 < ranks') (beta : ℂ) (L : ℕ) {rmesh : List (Lat n)} (hk : Full rmesh)
    {rmesh' : List (Lat m)} (hk' : Full rmesh') (g : G n o) (gt : ℕ → Lat n → o → o → ℂ) (gk : ℤ → Lat n → Matrix o o ℂ)
    (R : Lat m) {x y z u : O} (hxy : c.pos x = c.pos y) (hzu : c.pos z = c.pos u) :
    (∀ w nu, chi0rFromGr ranks' beta rmesh' (fun w => c.fold (g w)) R w nu x y z u
        = chi0rFromGr ranks beta rmesh g (c.emb R + c.pos z - c.pos x) w nu (c.orb x) (c.orb y) (c.orb z) (c.orb u)) ∧
      chi0W0r ranks' beta L rmesh' (fun t => c.fold (gt t)) R x y z u
        = chi0W0r ranks beta L rmesh gt (c.emb R + c.pos z - c.pos x) (c.orb x) (c.orb y) (c.orb z) (c.orb u) ∧
      ∀ w nu, kToR (fun K => chi0nFromGwk beta (fun w => c.up (gk w)) w K nu) R x y z u
        = kToR (fun k => chi0nFromGwk beta gk w k nu) (c.emb R + c.pos z - c.pos x) (c.orb x) (c.orb y) (c.orb z) (c.orb u) := by
  have e1 : c.emb R + c.pos u - c.pos x = c.emb R + c.pos z - c.pos x := by rw [hzu]
  have e2 : c.emb (-R) + c.pos y - c.pos z = -(c.emb R + c.pos z - c.pos x) := by rw [map_neg, hxy]; abel
  refine ⟨fun w nu => ?_, ?_, fun w nu => ?_⟩
  · unfold chi0rFromGr
    rw [C02_distributedAssign ranks hr _ hk.nodup, C02_distributedAssign ranks' hr' _ hk'.nodup, if_pos (hk.all _), if_pos (hk'.all _)]
    unfold chi0rPoint Cell.fold
    dsimp only
    rw [e1, e2]
  · unfold chi0W0r
    rw [C02_distributedAssign ranks hr _ hk.nodup, C02_distributedAssign ranks' hr' _ hk'.nodup, if_pos (hk.all _), if_pos (hk'.all _)]
    have h : ∀ t, chi0tPoint L (fun t => c.fold (gt t)) R t x y z u
        = chi0tPoint L gt (c.emb R + c.pos z - c.pos x) t (c.orb x) (c.orb y) (c.orb z) (c.orb u) := by
      intro t
      unfold chi0tPoint Cell.fold
      dsimp only
      rw [e1, e2]
    simp only [trapz, Pi.smul_apply, Pi.sub_apply, Finset.sum_apply, h]
  · have hs : ∀ {d : ℕ} {n : Fin d → ℕ} [∀ i, NeZero (n i)] (f g : Lat n → ℂ) (r : Lat n),
        kToR (fun q => (∑ k, -(f k * g (k - q))) * (beta / Fintype.card (Lat n))) r = -beta * (kToR f r * kToR g (-r)) := by
      intro d n _ f g r
      rw [← kToR_bubble]
      have := congrFun (Cell.kToR_smul' (-beta) fun q : Lat n => (Fintype.card (Lat n) : ℂ)⁻¹ * ∑ k, f k * g (k - q)) r
      rw [smul_eq_mul] at this
      rw [← this]
      congr 1
      funext q
      rw [smul_eq_mul, Finset.sum_neg_distrib]
      ring
    rw [kToR_entry4, kToR_entry4]
    refine (hs (fun k => c.up (gk nu) k u x) (fun k => c.up (gk (nu + w)) k y z) R).trans
      (Eq.trans ?_ (hs (fun k => gk nu k (c.orb u) (c.orb x)) (fun k => gk (nu + w) k (c.orb y) (c.orb z)) _).symm)
    rw [← kToR_entry, ← kToR_entry, ← kToR_entry, ← kToR_entry, c.kToR_up, c.kToR_up]
    change -beta * (kToR (gk nu) (c.emb R + c.pos u - c.pos x) (c.orb u) (c.orb x)
      * kToR (gk (nu + w)) (c.emb (-R) + c.pos y - c.pos z) (c.orb y) (c.orb z)) = _
    rw [e1, e2]

end Bubble

/-! ## Random phase approximation and screened interaction -/

section Rpa

open Verif.Rpa Verif.Dyson Classical

variable {W : Type*} [DecidableEq W]

/-- inclusion of the pairs -/
def oldIn (s : Setoid o) : Unit × OldPair s → o × o := fun p => p.2.1

/-- inclusion of the pairs -/
def newIn (c : Cell n m o O) (s : Setoid o) : Unit × NewPair c s → O × O := fun p => p.2.1

theorem oldIn_injective : Function.Injective (oldIn s) := fun _ _ h => Prod.ext rfl (Subtype.ext h)

theorem newIn_injective : Function.Injective (newIn c s) := fun _ _ h => Prod.ext rfl (Subtype.ext h)

theorem same_iff (ha : Atoms c s) {f : Lat n → T4 o ℂ} {f' : Lat m → T4 O ℂ} :
    PairOf c s f f' ↔ Same (pairCell Unit ha) (oldIn s) (newIn c s) (fun k => pairMat (f k)) fun K => pairMat (f' K) := by
  have key : ∀ (R : Lat m) (p q : Unit × NewPair c s),
      kToR (fun K => (pairMat (f' K)).submatrix (newIn c s) (newIn c s)) R p q = kToR f' R p.2.1.1 p.2.1.2 q.2.1.1 q.2.1.2 ∧
      (pairCell Unit ha).foldM (kToR fun k => (pairMat (f k)).submatrix (oldIn s) (oldIn s)) R p q
        = kToR f (c.emb R + c.pos q.2.1.1 - c.pos p.2.1.1) (c.orb p.2.1.1) (c.orb p.2.1.2) (c.orb q.2.1.1) (c.orb q.2.1.2) := by
    intro R p q
    constructor
    · rw [kToR_entry4]
      exact kToR_entry _ _ _ _
    · change kToR (fun k => (pairMat (f k)).submatrix (oldIn s) (oldIn s)) (c.emb R + -c.pos p.2.1.1 - -c.pos q.2.1.1) _ _ = _
      rw [kToR_entry4, show c.emb R + -c.pos p.2.1.1 - -c.pos q.2.1.1 = c.emb R + c.pos q.2.1.1 - c.pos p.2.1.1 by abel]
      exact kToR_entry _ _ _ _
  constructor
  · intro h K
    have h1 : kToR (fun K => (pairMat (f' K)).submatrix (newIn c s) (newIn c s))
        = (pairCell Unit ha).foldM (kToR fun k => (pairMat (f k)).submatrix (oldIn s) (oldIn s)) := by
      funext R
      ext p q
      rw [(key R p q).1, (key R p q).2, h R _ _ _ _ p.2.2 q.2.2]
    have h2 := congrArg (fun F => rToK F K) h1
    simp only [rToK_kToR] at h2
    exact h2
  · intro h R x y z u h1 h2
    have h3 := (key R ((), ⟨(x, y), h1⟩) ((), ⟨(z, u), h2⟩))
    refine h3.1.symm.trans (Eq.trans ?_ h3.2)
    have h4 : (fun K => (pairMat (f' K)).submatrix (newIn c s) (newIn c s))
        = (pairCell Unit ha).up fun k => (pairMat (f k)).submatrix (oldIn s) (oldIn s) := funext h
    rw [h4, Cell.kToR_up]

theorem onsite_paired {U : T4 o ℂ} (hU : Onsite s U) : Paired s.r U := fun a b c e h => ⟨(hU a b c e h).1, (hU a b c e h).2.2⟩

theorem place_paired (U : T4 o ℂ) : Paired (Near c s) (place c s U) := fun x y z u h => by
  unfold place at h
  by_cases h' : Near c s x y ∧ Near c s y z ∧ Near c s z u
  · exact ⟨h'.1, h'.2.2⟩
  · exact absurd (if_neg h') h

theorem old_inside {V : T4 o ℂ} (h : Paired s.r V) : Inside (oldIn s) (pairMat V) := fun i j hij =>
  ⟨⟨((), ⟨i, (h _ _ _ _ hij).1⟩), rfl⟩, ⟨((), ⟨j, (h _ _ _ _ hij).2⟩), rfl⟩⟩

theorem new_inside {V : T4 O ℂ} (h : Paired (Near c s) V) : Inside (newIn c s) (pairMat V) := fun i j hij =>
  ⟨⟨((), ⟨i, (h _ _ _ _ hij).1⟩), rfl⟩, ⟨((), ⟨j, (h _ _ _ _ hij).2⟩), rfl⟩⟩

/-- an interaction within the atoms, in both descriptions -/
theorem place_pairOf (ha : Atoms c s) {U : T4 o ℂ} (hU : Onsite s U) : PairOf c s (fun _ => U) fun _ => place c s U := by
  rw [same_iff ha]
  intro K
  have h := up_const (pairCell_atoms ha (pairSetoid Unit s) fun _ _ h => h) (M := (pairMat U).submatrix (oldIn s) (oldIn s))
    (fun p q h => by
      have h1 := hU _ _ _ _ h
      exact s.trans h1.1 h1.2.1) K
  rw [h]
  ext p q
  change place c s U p.2.1.1 p.2.1.2 q.2.1.1 q.2.1.2 = if Near (pairCell Unit ha) (pairSetoid Unit s) p q
    then U (c.orb p.2.1.1) (c.orb p.2.1.2) (c.orb q.2.1.1) (c.orb q.2.1.2) else 0
  unfold place
  have : (Near c s p.2.1.1 p.2.1.2 ∧ Near c s p.2.1.2 q.2.1.1 ∧ Near c s q.2.1.1 q.2.1.2)
      ↔ Near (pairCell Unit ha) (pairSetoid Unit s) p q := by
    constructor
    · rintro ⟨h1, h2, _⟩
      have h3 := h1.trans h2
      exact ⟨congrArg Neg.neg h3.1, h3.2⟩
    · rintro ⟨h1, h2⟩
      have h3 : Near c s p.2.1.1 q.2.1.1 := ⟨neg_injective h1, h2⟩
      exact ⟨p.2.2, p.2.2.symm.trans h3, q.2.2⟩
  simp only [this]

/-- an interaction between pairs on atoms that depends on momentum, in the new description -/
def spread (c : Cell n m o O) (s : Setoid o) (V : Lat n → T4 o ℂ) : Lat m → T4 O ℂ := rToK fun R x y z u =>
  if Near c s x y ∧ Near c s z u then kToR V (c.emb R + c.pos z - c.pos x) (c.orb x) (c.orb y) (c.orb z) (c.orb u) else 0

theorem spread_pairOf (V : Lat n → T4 o ℂ) : PairOf c s V (spread c s V) := by
  intro R x y z u h1 h2
  unfold spread
  rw [kToR_rToK]
  exact if_pos ⟨h1, h2⟩

theorem spread_paired (V : Lat n → T4 o ℂ) (K : Lat m) : Paired (Near c s) (spread c s V K) := by
  intro x y z u h
  by_contra h'
  refine h ?_
  unfold spread
  simp only [rToK, fftw, Finset.sum_apply, Pi.smul_apply]
  exact Finset.sum_eq_zero fun R _ => by rw [if_neg h', smul_zero]

theorem PairOf.zero : PairOf c s (fun _ => 0) fun _ => 0 := by
  intro R x y z u _ _
  rw [kToR_entry4, kToR_entry4]
  simp [kToR, fftw]

/-- C128: the susceptibility of the random phase approximation with an interaction within the atoms. -/
theorem C128_rpa (ha : Atoms c s) {ranks ranks' : ℕ} (hr : 0 < ranks) (hr' : 0 < ranks') {wmesh : List W} (hw : wmesh.Nodup)
    {kmesh : List (Lat n)} (hk : Full kmesh) {kmesh' : List (Lat m)} (hk' : Full kmesh') (chi0 : W × Lat n → T4 o ℂ)
    (chi0' : W × Lat m → T4 O ℂ) (hc : ∀ w, PairOf c s (fun k => chi0 (w, k)) fun K => chi0' (w, K)) {U : T4 o ℂ} (hU : Onsite s U)
    (hu : ∀ p, IsUnit (1 - pairMat (chi0 p) * pairMat U).det) (w : W) :
    PairOf c s (fun k => solveRpaPH ranks (prodMesh wmesh kmesh) chi0 U (w, k))
      fun K => solveRpaPH ranks' (prodMesh wmesh kmesh') chi0' (place c s U) (w, K) := by
  unfold solveRpaPH
  simp only [on_mesh hr hw hk, on_mesh hr' hw hk']
  by_cases h : w ∈ wmesh
  · simp only [if_pos h]
    rw [same_iff ha]
    exact Same.solve oldIn_injective newIn_injective ((same_iff ha).1 (hc w)) ((same_iff ha).1 (place_pairOf ha hU))
      (fun _ => old_inside (onsite_paired hU)) (fun _ => new_inside (place_paired U)) fun k => hu (w, k)
  · simp only [if_neg h]
    exact PairOf.zero

theorem screened_pairOf (ha : Atoms c s) {chi V : Lat n → T4 o ℂ} {chi' V' : Lat m → T4 O ℂ} (hc : PairOf c s chi chi')
    (hV : PairOf c s V V') (h : ∀ k, Paired s.r (V k)) (h' : ∀ K, Paired (Near c s) (V' K))
    (hu : ∀ k, IsUnit (1 - pairMat (chi k) * pairMat (V k)).det) :
    (PairOf c s (fun k => screenedBubblePoint (chi k) (V k)) fun K => screenedBubblePoint (chi' K) (V' K)) ∧
      (∀ K, IsUnit (1 - pairMat (chi' K) * pairMat (V' K)).det) ∧
      PairOf c s (fun k => screenedGeneralizedPoint (chi k) (V k)) fun K => screenedGeneralizedPoint (chi' K) (V' K) := by
  have hc' := (same_iff ha).1 hc
  have hV' := (same_iff ha).1 hV
  have hun := Same.unit oldIn_injective newIn_injective hc' hV' (fun k => old_inside (h k)) (fun K => new_inside (h' K)) hu
  refine ⟨?_, fun K => (hun K).1, ?_⟩
  · rw [same_iff ha]
    exact Same.left oldIn_injective newIn_injective (fun K => (hun K).2) hV' (fun k => old_inside (h k)) fun K => new_inside (h' K)
  · rw [same_iff ha]
    exact Same.add (Same.right oldIn_injective newIn_injective
      (Same.left oldIn_injective newIn_injective hc' hV' (fun k => old_inside (h k)) fun K => new_inside (h' K)) hV'
      (fun k => old_inside (h k)) fun K => new_inside (h' K)) hV'

/-- C128: the screened interaction in its three forms, with an interaction between pairs on atoms, also at a distance. The
interaction has to be given with the lattice vectors counted from the first pair to the second. -/
theorem C128_screened (ha : Atoms c s) {ranks ranks' : ℕ} (hr : 0 < ranks) (hr' : 0 < ranks') {wmesh : List W} (hw : wmesh.Nodup)
    {kmesh : List (Lat n)} (hk : Full kmesh) {kmesh' : List (Lat m)} (hk' : Full kmesh') (chi : W × Lat n → T4 o ℂ)
    (chi' : W × Lat m → T4 O ℂ) (hc : ∀ w, PairOf c s (fun k => chi (w, k)) fun K => chi' (w, K)) (V : Lat n → T4 o ℂ)
    (hV : ∀ k, Paired s.r (V k)) (hu : ∀ w k, IsUnit (1 - pairMat (chi (w, k)) * pairMat (V k)).det) :
    (∀ f f', screenedBubble ranks (prodMesh wmesh kmesh) kmesh kmesh chi (.static V) = .ok f →
        screenedBubble ranks' (prodMesh wmesh kmesh') kmesh' kmesh' chi' (.static (spread c s V)) = .ok f' →
        ∀ w, PairOf c s (fun k => f (w, k)) fun K => f' (w, K)) ∧
      (∀ f f', screenedOpt ranks (prodMesh wmesh kmesh) kmesh kmesh chi V = .ok f →
        screenedOpt ranks' (prodMesh wmesh kmesh') kmesh' kmesh' chi' (spread c s V) = .ok f' →
        ∀ w, PairOf c s (fun k => f (w, k)) fun K => f' (w, K)) ∧
      ∀ f f', screenedGeneralized ranks (prodMesh wmesh kmesh) kmesh kmesh chi (.static V) = .ok f →
        screenedGeneralized ranks' (prodMesh wmesh kmesh') kmesh' kmesh' chi' (.static (spread c s V)) = .ok f' →
        ∀ w, PairOf c s (fun k => f (w, k)) fun K => f' (w, K) := by
  have key := fun w => screened_pairOf ha (hc w) (spread_pairOf V) hV (spread_paired V) (hu w)
  have hfin : ∀ (p : Lat n → T4 o ℂ) (p' : Lat m → T4 O ℂ) (w : W), PairOf c s p p' →
      PairOf c s (fun k => if w ∈ wmesh then p k else 0) fun K => if w ∈ wmesh then p' K else 0 := by
    intro p p' w hp
    by_cases h : w ∈ wmesh
    · simp only [if_pos h]
      exact hp
    · simp only [if_neg h]
      exact PairOf.zero
  refine ⟨fun f f' h h' w => ?_, fun f f' h h' w => ?_, fun f f' h h' w => ?_⟩
  · unfold screenedBubble at h h'
    rw [if_neg (not_not.2 rfl)] at h h'
    rw [← Except.ok.inj h, ← Except.ok.inj h']
    simp only [on_mesh hr hw hk, on_mesh hr' hw hk']
    exact hfin _ _ w (key w).1
  · unfold screenedOpt at h h'
    rw [if_neg (not_not.2 rfl)] at h h'
    rw [← Except.ok.inj h, ← Except.ok.inj h']
    simp only [on_mesh hr hw hk, on_mesh hr' hw hk', C17_paths_agree]
    exact hfin _ _ w (key w).1
  · unfold screenedGeneralized at h h'
    rw [if_neg (not_not.2 rfl)] at h h'
    rw [← Except.ok.inj h, ← Except.ok.inj h']
    simp only [on_mesh hr hw hk, on_mesh hr' hw hk']
    exact hfin _ _ w (key w).2.2

end Rpa

end Verif.Supercell
