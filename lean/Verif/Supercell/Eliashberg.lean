import Verif.Supercell.Gw
import Verif.Eliashberg.Props

/-!
# C128: the unit cell in the linearised Eliashberg equation
-/

set_option linter.unusedSectionVars false

noncomputable section

namespace Verif.Supercell

open Verif.Fourier Verif.Parallel Verif.Bubble Verif.Gw Verif.Rpa Verif.Dyson Verif.Eliashberg Matrix Classical

variable {d d' : ℕ} {n : Fin d → ℕ} {m : Fin d' → ℕ} [∀ i, NeZero (n i)] [∀ i, NeZero (m i)] {o O : Type} [Fintype o]
  [DecidableEq o] [Fintype O] [DecidableEq O] {c : Cell n m o O} {s : Setoid o}

/-! ## The pair function -/

theorem up_transpose {f : Lat n → o → o → ℂ} {f' : Lat m → O → O → ℂ} (h : UpOf c f f') :
    UpOf c.neg (fun k a b => f k b a) fun K x y => f' K y x := by
  intro R x y
  have h1 := h R y x
  rw [kToR_entry2, kToR_entry2] at h1 ⊢
  refine h1.trans ?_
  change _ = kToR (fun k => f k (c.orb y) (c.orb x)) (c.emb R + -c.pos x - -c.pos y)
  rw [show c.emb R + -c.pos x - -c.pos y = c.emb R + c.pos y - c.pos x by abel]

theorem kToR_conj (f : Lat n → ℂ) (r : Lat n) : kToR (fun k => (starRingEnd ℂ) (f k)) r = (starRingEnd ℂ) (kToR f (-r)) := by
  rw [kToR_lin, kToR_lin, map_sum]
  refine Finset.sum_congr rfl fun k _ => ?_
  rw [smul_eq_mul, smul_eq_mul, map_mul, map_mul, map_inv₀, Complex.conj_natCast]
  have hs : (starRingEnd ℂ) (ker (-k) (-r)) = ker (-k) r := by
    rw [ker_neg_neg]
    have h1 : ∀ i, (starRingEnd ℂ) (ZMod.stdAddChar (k i * r i)) = ZMod.stdAddChar ((-k) i * r i) := fun i => by
      rw [Pi.neg_apply, neg_mul, AddChar.map_neg_eq_conj]
    rw [ker, ker, map_prod]
    exact Finset.prod_congr rfl fun i _ => h1 i
  rw [hs]

theorem up_reversed {f : Lat n → o → o → ℂ} {f' : Lat m → O → O → ℂ} (h : UpOf c f f') :
    UpOf c.neg (fun k a b => (starRingEnd ℂ) (f (-k) b a)) fun K x y => (starRingEnd ℂ) (f' (-K) y x) := by
  have h1 := up_transpose h
  intro R x y
  have h2 := h1 R x y
  rw [kToR_entry2, kToR_entry2] at h2 ⊢
  have e : ∀ {d : ℕ} {n : Fin d → ℕ} [∀ i, NeZero (n i)] (f : Lat n → ℂ) (r : Lat n),
      kToR (fun k => (starRingEnd ℂ) (f (-k))) r = (starRingEnd ℂ) (kToR f r) := by
    intro d n _ f r
    rw [kToR_conj fun k => f (-k), kToR_flip f, neg_neg]
  rw [e fun K => f' K y x, e fun k => f k (c.neg.orb y) (c.neg.orb x)]
  exact congrArg _ h2

theorem pairF_cell {g delta : ℤ → Lat n → o → o → ℂ} {g' delta' : ℤ → Lat m → O → O → ℂ} (hg : ∀ w, UpOf c (g w) (g' w))
    (hd : ∀ w, UpOf c.neg (delta w) (delta' w)) (w : ℤ) : UpOf c.neg (pairF g delta w) (pairF g' delta' w) := by
  have e : ∀ {d : ℕ} {n : Fin d → ℕ} [∀ i, NeZero (n i)] {o : Type} [Fintype o] [DecidableEq o] (g delta : ℤ → Lat n → o → o → ℂ) (k : Lat n),
      Matrix.of (pairF g delta w k) = Matrix.of (fun a b => (starRingEnd ℂ) (g w (-k) b a)) * Matrix.of (delta w k)
        * Matrix.of fun a b => g w k b a := by
    intro d n _ o _ _ g delta k
    ext a b
    simp only [Matrix.mul_apply, Finset.sum_mul]
    change (∑ e, ∑ f, g w k b f * (starRingEnd ℂ) (g w (-k) e a) * delta w k e f) = ∑ f, ∑ e, (starRingEnd ℂ) (g w (-k) e a) * delta w k e f * g w k b f
    rw [Finset.sum_comm]
    refine Finset.sum_congr rfl fun f _ => Finset.sum_congr rfl fun e _ => ?_
    ring
  have h1 := upOf_iff.1 (up_transpose (hg w))
  have h2 := upOf_iff.1 (up_reversed (hg w))
  have h3 := upOf_iff.1 (hd w)
  rw [upOf_iff]
  funext K
  rw [e]
  simp only [e]
  rw [c.neg.up_mul, c.neg.up_mul, ← h1, ← h2, ← h3]

/-! ## The product with a vertex -/

theorem kToR_convolution (f g : Lat n → ℂ) (r : Lat n) : kToR (fun q => ∑ k, f (q - k) * g k) r
    = (Fintype.card (Lat n) : ℂ) * (kToR f r * kToR g r) := by
  have h := kToR_bubble g (fun k => f (-k)) r
  rw [kToR_flip f, neg_neg] at h
  have h2 := congrFun (Cell.kToR_smul' (Fintype.card (Lat n) : ℂ) fun q : Lat n =>
    (Fintype.card (Lat n) : ℂ)⁻¹ * ∑ k, g k * f (-(k - q))) r
  rw [smul_eq_mul, h] at h2
  rw [mul_comm (kToR f r), ← h2]
  congr 1
  funext q
  rw [smul_eq_mul, ← mul_assoc, mul_inv_cancel₀ card_ne_zero', one_mul]
  refine Finset.sum_congr rfl fun k _ => ?_
  rw [neg_sub, mul_comm]

theorem kToR_sumValue (beta : ℝ) (N : ℕ) (gamma : ℤ → Lat n → Bubble.T4 o) (g delta : ℤ → Lat n → o → o → ℂ) (w : ℤ) (r : Lat n) (a b : o) :
    kToR (sumValue beta N gamma g delta w) r a b
      = (∑ i ∈ window N, gammaF (kToR (gamma (w - i)) r) (kToR (pairF g delta i) r) a b) / beta := by
  rw [kToR_entry2]
  have h1 : (fun k => sumValue beta N gamma g delta w k a b) = fun k => ∑ i ∈ window N, ∑ e, ∑ f,
      ((beta * Fintype.card (Lat n) : ℂ)⁻¹ * -(1 / 2)) • ∑ q, gamma (w - i) (k - q) e a f b * pairF g delta i q f e := by
    funext k
    unfold sumValue gammaF
    rw [div_eq_inv_mul, Finset.mul_sum]
    refine Finset.sum_congr rfl fun i _ => ?_
    rw [Finset.sum_comm, Finset.mul_sum]
    refine Finset.sum_congr rfl fun e _ => ?_
    rw [Finset.sum_comm, Finset.mul_sum]
    refine Finset.sum_congr rfl fun f _ => ?_
    rw [smul_eq_mul, Finset.mul_sum, Finset.mul_sum]
    exact Finset.sum_congr rfl fun q _ => by ring
  have hs : ∀ {I : Type} (T : Finset I) (F : I → Lat n → ℂ), kToR (fun k => ∑ i ∈ T, F i k) r = ∑ i ∈ T, kToR (F i) r := by
    intro I T F
    simp only [kToR_lin, Finset.smul_sum]
    exact Finset.sum_comm
  rw [h1, hs, Finset.sum_div]
  refine Finset.sum_congr rfl fun i _ => ?_
  unfold gammaF
  rw [hs, Finset.sum_div]
  refine Finset.sum_congr rfl fun e _ => ?_
  rw [hs, Finset.sum_div]
  refine Finset.sum_congr rfl fun f _ => ?_
  have h2 := congrFun (Cell.kToR_smul' ((beta * Fintype.card (Lat n) : ℂ)⁻¹ * -(1 / 2)) fun k : Lat n =>
    ∑ q, gamma (w - i) (k - q) e a f b * pairF g delta i q f e) r
  refine h2.trans ?_
  rw [kToR_convolution (fun k => gamma (w - i) k e a f b) fun k => pairF g delta i k f e, kToR_entry4, kToR_entry2, smul_eq_mul, mul_inv,
    div_eq_mul_inv]
  have := card_ne_zero' (n := n)
  field_simp

/-- a vertex of the gap equation: the pairs that sit on one atom are the first with the fourth and the second with the third -/
def Crossed (r : o → o → Prop) (V : Bubble.T4 o) : Prop := ∀ a b e f, V a b e f ≠ 0 → r a f ∧ r e b

theorem kToR_crossed {r : o → o → Prop} {W : Lat n → Bubble.T4 o} (h : ∀ k, Crossed r (W k)) (x : Lat n) : Crossed r (kToR W x) := by
  intro a b e f h0
  by_contra hn
  refine h0 ?_
  rw [kToR_entry4, kToR_lin]
  refine Finset.sum_eq_zero fun k _ => ?_
  rw [show W k a b e f = 0 from by_contra fun h1 => hn (h k _ _ _ _ h1), smul_zero]

/-- the product, between two orbitals, for a vertex known between two atoms -/
theorem gammaF_cell (ha : Atoms c s) {V : Bubble.T4 o} {V' : Bubble.T4 O} (hV : Crossed s.r V) (hV' : Crossed (Near c s) V')
    {F : o → o → ℂ} {F' : O → O → ℂ} (x y : O)
    (h : ∀ z u, Near c s y z → Near c s x u → V' z x u y = V (c.orb z) (c.orb x) (c.orb u) (c.orb y))
    (hF : ∀ z u, Near c s y z → Near c s x u → F' u z = F (c.orb u) (c.orb z)) :
    gammaF V' F' x y = gammaF V F (c.orb x) (c.orb y) := by
  have new : ∀ z u, -(1 / 2) * V' z x u y * F' u z = if Near c s y z ∧ Near c s x u then
      -(1 / 2) * V (c.orb z) (c.orb x) (c.orb u) (c.orb y) * F (c.orb u) (c.orb z) else 0 := by
    intro z u
    by_cases hn : Near c s y z ∧ Near c s x u
    · rw [if_pos hn, h z u hn.1 hn.2, hF z u hn.1 hn.2]
    · rw [if_neg hn, show V' z x u y = 0 from by_contra fun h0 => hn ⟨(hV' _ _ _ _ h0).1.symm, (hV' _ _ _ _ h0).2.symm⟩, mul_zero, zero_mul]
  have old : ∀ a b, -(1 / 2) * V a (c.orb x) b (c.orb y) * F b a = if s.r (c.orb y) a ∧ s.r (c.orb x) b then
      -(1 / 2) * V a (c.orb x) b (c.orb y) * F b a else 0 := by
    intro a b
    by_cases hn : s.r (c.orb y) a ∧ s.r (c.orb x) b
    · rw [if_pos hn]
    · rw [if_neg hn, show V a (c.orb x) b (c.orb y) = 0 from by_contra fun h0 =>
        hn ⟨s.symm (hV _ _ _ _ h0).1, s.symm (hV _ _ _ _ h0).2⟩, mul_zero, zero_mul]
  unfold gammaF
  simp only [new]
  rw [sum_nearXY ha y x fun a b => -(1 / 2) * V a (c.orb x) b (c.orb y) * F b a]
  exact Finset.sum_congr rfl fun a _ => Finset.sum_congr rfl fun b _ => (old a b).symm

/-- The product in another cell for any vertex known between atoms, with the lattice vector at which the vertex is taken. -/
theorem product_core (ha : Atoms c s) (beta : ℝ) (N : ℕ) {gamma : ℤ → Lat n → Bubble.T4 o} {gamma' : ℤ → Lat m → Bubble.T4 O}
    (hV : ∀ w k, Crossed s.r (gamma w k)) (hV' : ∀ w K, Crossed (Near c s) (gamma' w K)) {g delta : ℤ → Lat n → o → o → ℂ}
    {g' delta' : ℤ → Lat m → O → O → ℂ} (hg : ∀ w, UpOf c (g w) (g' w)) (hd : ∀ w, UpOf c.neg (delta w) (delta' w)) (R : Lat m) (x y : O)
    (r : Lat n) (hr : ∀ w z u, Near c s y z → Near c s x u →
      kToR (gamma' w) R z x u y = kToR (gamma w) r (c.orb z) (c.orb x) (c.orb u) (c.orb y)) (w : ℤ) :
    kToR (sumValue beta N gamma' g' delta' w) R x y
      = (∑ i ∈ window N, gammaF (kToR (gamma (w - i)) r) (kToR (pairF g delta i) (c.emb R + c.pos y - c.pos x)) (c.orb x) (c.orb y)) / beta := by
  rw [kToR_sumValue]
  congr 1
  refine Finset.sum_congr rfl fun i _ => ?_
  refine gammaF_cell ha (kToR_crossed (hV (w - i)) r) (kToR_crossed (hV' (w - i)) R) x y (hr (w - i)) fun z u hz hu => ?_
  have h1 := pairF_cell hg hd i R u z
  refine h1.trans ?_
  change kToR (pairF g delta i) (c.emb R + -c.pos u - -c.pos z) (c.orb u) (c.orb z) = _
  rw [← hz.1, ← hu.1, show c.emb R + -c.pos x - -c.pos y = c.emb R + c.pos y - c.pos x by abel]

/-- C128: the product of the linearised Eliashberg equation with a vertex that is the same function of the lattice vector from the
atom of its third to the atom of its first index. -/
theorem C128_eliashberg_partial (ha : Atoms c s) {ranks ranks' : ℕ} (hr : 0 < ranks) (hr' : 0 < ranks') {N Ng NG : ℕ} (hN : N ≤ Ng)
    (hG : 4 * N ≤ 2 * NG - 1) (beta : ℝ) {lat : List (Lat n)} (hl : Complete lat) {lat' : List (Lat m)} (hl' : Complete lat')
    {gamma : ℤ → Lat n → Bubble.T4 o} {gamma' : ℤ → Lat m → Bubble.T4 O} (hV : ∀ w k, Crossed s.r (gamma w k))
    (hV' : ∀ w K, Crossed (Near c s) (gamma' w K)) {g delta : ℤ → Lat n → o → o → ℂ} {g' delta' : ℤ → Lat m → O → O → ℂ}
    (hg : ∀ w, UpOf c (g w) (g' w)) (hd : ∀ w, UpOf c.neg (delta w) (delta' w))
    (h : ∀ w R z x u y, Near c s z y → Near c s u x → kToR (gamma' w) R z x u y
      = kToR (gamma w) (c.emb R + c.pos z - c.pos u) (c.orb z) (c.orb x) (c.orb u) (c.orb y)) :
    ∃ f f', eliashbergProduct ranks N Ng NG beta lat gamma g delta = .ok f ∧
      eliashbergProduct ranks' N Ng NG beta lat' gamma' g' delta' = .ok f' ∧ ∀ w, UpOf c.neg (f w) (f' w) := by
  refine ⟨_, _, eliashbergProduct_ok hr hN hG beta hl gamma g delta, eliashbergProduct_ok hr' hN hG beta hl' gamma' g' delta', fun w R x y => ?_⟩
  change _ = kToR (sumValue beta N gamma g delta w) (c.emb R + -c.pos x - -c.pos y) (c.orb x) (c.orb y)
  rw [show c.emb R + -c.pos x - -c.pos y = c.emb R + c.pos y - c.pos x by abel, kToR_sumValue beta N gamma g]
  refine product_core ha beta N hV hV' hg hd R x y _ (fun w z u hz hu => ?_) w
  rw [h w R z x u y hz.symm hu.symm, ← hz.1, ← hu.1]

/-! ## The vertex of the random phase approximation -/

theorem kToR_const4 (U : Bubble.T4 o) (r : Lat n) (a b e f : o) : kToR (fun _ => U) r a b e f = if r = 0 then U a b e f else 0 := by
  have h := congrFun (congrFun (kToR_const (n := n) (Matrix.of fun _ _ : Unit => U a b e f) r) ()) ()
  rw [kToR_entry] at h
  rw [kToR_entry4]
  refine h.trans ?_
  by_cases hr : r = 0
  · rw [if_pos hr, if_pos hr]; rfl
  · rw [if_neg hr, if_neg hr]; rfl

/-- an interaction within the atoms seen from the other pairs -/
theorem place_crossed (ha : Atoms c s) {U : Bubble.T4 o} (hU : Onsite s U) (R : Lat m) (z x u y : O) (h1 : Near c s z y) (h2 : Near c s u x) :
    kToR (fun _ => place c s U) R z x u y
      = kToR (fun _ => U) (c.emb R + c.pos u - c.pos z) (c.orb z) (c.orb x) (c.orb u) (c.orb y) := by
  rw [kToR_const4, kToR_const4]
  by_cases h0 : U (c.orb z) (c.orb x) (c.orb u) (c.orb y) = 0
  · unfold place
    rw [h0, ite_self, ite_self, ite_self]
  · have hs := hU _ _ _ _ h0
    obtain ⟨v, hv1, hv2⟩ := ha z (c.orb u) (s.trans hs.1 hs.2.1)
    by_cases hR : c.emb R + c.pos u - c.pos z = 0
    · have h3 := c.inj (R := R) (S := 0) (x := u) (y := v) (by rw [map_zero, zero_add, hv2]; exact sub_eq_zero.1 hR) hv1.symm
      have hp : c.pos u = c.pos z := by rw [h3.2, hv2]
      rw [if_pos hR, if_pos h3.1]
      unfold place
      have hxu : Near c s x u := h2.symm
      have hzx : Near c s z x := ⟨by rw [← hp, h2.1], hs.1⟩
      rw [if_pos ⟨hzx, hxu, (hxu.symm.trans hzx.symm).trans h1⟩]
    · rw [if_neg hR]
      by_cases hR0 : R = 0
      · rw [if_pos hR0]
        unfold place
        rw [if_neg]
        intro hn
        refine hR ?_
        rw [hR0, map_zero, zero_add, ← (hn.1.trans hn.2.1).1, sub_self]
      · rw [if_neg hR0]

theorem place_crossed' (U : Bubble.T4 o) : Crossed (Near c s) (place c s U) := fun x y z u h => by
  unfold place at h
  by_cases h' : Near c s x y ∧ Near c s y z ∧ Near c s z u
  · exact ⟨(h'.1.trans h'.2.1).trans h'.2.2, h'.2.1.symm⟩
  · exact absurd (if_neg h') h

theorem onsite_crossed {U : Bubble.T4 o} (hU : Onsite s U) : Crossed s.r U := fun a b e f h =>
  have h1 := hU a b e f h
  ⟨s.trans h1.1 (s.trans h1.2.1 h1.2.2), s.symm h1.2.1⟩

theorem phi_paired {U : Bubble.T4 o} {r : o → o → Prop} (hU : Paired r U) (chi : Bubble.T4 o) : Paired r (phiPoint chi U) := by
  intro a b e f h
  constructor
  · by_contra hn
    refine h ?_
    change (pairMat U * pairMat chi * pairMat U) (a, b) (e, f) = 0
    rw [Matrix.mul_assoc, Matrix.mul_apply]
    exact Finset.sum_eq_zero fun q _ => by
      rw [show pairMat U (a, b) q = 0 from by_contra fun h0 => hn (hU _ _ _ _ h0).1, zero_mul]
  · by_contra hn
    refine h ?_
    change (pairMat U * pairMat chi * pairMat U) (a, b) (e, f) = 0
    rw [Matrix.mul_apply]
    exact Finset.sum_eq_zero fun q _ => by
      rw [show pairMat U q (e, f) = 0 from by_contra fun h0 => hn (hU _ _ _ _ h0).2, mul_zero]

/-- the ladder `U chi U` -/
theorem phi_pairOf (ha : Atoms c s) {U : Bubble.T4 o} (hU : Onsite s U) {chi : Lat n → Bubble.T4 o} {chi' : Lat m → Bubble.T4 O}
    (hc : PairOf c s chi chi') : PairOf c s (fun k => phiPoint (chi k) U) fun K => phiPoint (chi' K) (place c s U) := by
  rw [same_iff ha]
  exact Same.right oldIn_injective newIn_injective
    (Same.left oldIn_injective newIn_injective ((same_iff ha).1 hc) ((same_iff ha).1 (place_pairOf ha hU))
      (fun _ => old_inside (onsite_paired hU)) fun _ => new_inside (place_paired U)) ((same_iff ha).1 (place_pairOf ha hU))
    (fun _ => old_inside (onsite_paired hU)) fun _ => new_inside (place_paired U)

/-- the vertices of the random phase approximation have this form -/
def ladderVertex (z : Fin 4 → ℂ) (Ud Um phid phim : Bubble.T4 o) : Bubble.T4 o := fun a b e f =>
  z 0 * (starRingEnd ℂ) (phim e b a f) + z 1 * (starRingEnd ℂ) (phid e b a f) + (z 2 * Ud a b e f + z 3 * Um a b e f)

theorem singlet_ladder (Ud Um phid phim : Bubble.T4 o) : gammaSinglet Ud Um phid phim = ladderVertex ![3, 1, 1 / 2, 3 / 2] Ud Um phid phim := by
  funext a b e f
  change 3 * (starRingEnd ℂ) (phim e b a f) + (starRingEnd ℂ) (phid e b a f) + ((1 / 2) * Ud a b e f + (3 / 2) * Um a b e f)
    = 3 * (starRingEnd ℂ) (phim e b a f) + 1 * (starRingEnd ℂ) (phid e b a f) + ((1 / 2) * Ud a b e f + (3 / 2) * Um a b e f)
  ring

theorem triplet_ladder (Ud Um phid phim : Bubble.T4 o) : gammaTriplet Ud Um phid phim = ladderVertex ![-1, -1, -(1 / 2), 1 / 2] Ud Um phid phim := by
  funext a b e f
  change -(starRingEnd ℂ) (phim e b a f) - (starRingEnd ℂ) (phid e b a f) + (-(1 / 2) * Ud a b e f + (1 / 2) * Um a b e f)
    = -1 * (starRingEnd ℂ) (phim e b a f) + -1 * (starRingEnd ℂ) (phid e b a f) + (-(1 / 2) * Ud a b e f + (1 / 2) * Um a b e f)
  ring

theorem kToR_ladder (z : Fin 4 → ℂ) (Ud Um : Bubble.T4 o) (A B : Lat n → Bubble.T4 o) (r : Lat n)
    (a b e f : o) : kToR (fun k => ladderVertex z Ud Um (A k) (B k)) r a b e f
      = z 0 * (starRingEnd ℂ) (kToR B (-r) e b a f) + z 1 * (starRingEnd ℂ) (kToR A (-r) e b a f)
        + (z 2 * kToR (fun _ => Ud) r a b e f + z 3 * kToR (fun _ => Um) r a b e f) := by
  rw [kToR_entry4, kToR_entry4 A, kToR_entry4 B, kToR_entry4 fun _ => Ud, kToR_entry4 fun _ => Um, ← kToR_conj, ← kToR_conj]
  simp only [kToR_lin, smul_eq_mul, Finset.mul_sum]
  rw [← Finset.sum_add_distrib, ← Finset.sum_add_distrib, ← Finset.sum_add_distrib]
  refine Finset.sum_congr rfl fun k _ => ?_
  unfold ladderVertex
  ring

theorem ladder_crossed {r : o → o → Prop} (z : Fin 4 → ℂ) {Ud Um phid phim : Bubble.T4 o} (h1 : Crossed r Ud) (h2 : Crossed r Um)
    (h3 : Paired r phid) (h4 : Paired r phim) : Crossed r (ladderVertex z Ud Um phid phim) := by
  intro a b e f h0
  by_contra hn
  refine h0 ?_
  have z1 : Ud a b e f = 0 := by_contra fun h => hn (h1 _ _ _ _ h)
  have z2 : Um a b e f = 0 := by_contra fun h => hn (h2 _ _ _ _ h)
  have z3 : phid e b a f = 0 := by_contra fun h => hn ⟨(h3 _ _ _ _ h).2, (h3 _ _ _ _ h).1⟩
  have z4 : phim e b a f = 0 := by_contra fun h => hn ⟨(h4 _ _ _ _ h).2, (h4 _ _ _ _ h).1⟩
  unfold ladderVertex
  rw [z1, z2, z3, z4]
  simp

theorem ladder_actual (ha : Atoms c s) (z : Fin 4 → ℂ) {Ud Um : Bubble.T4 o} (hd : Onsite s Ud) (hm : Onsite s Um) {chid chim : Lat n → Bubble.T4 o}
    {chid' chim' : Lat m → Bubble.T4 O} (hcd : PairOf c s chid chid') (hcm : PairOf c s chim chim') :
    (∀ R v x u y, Near c s v y → Near c s u x → kToR (fun K => ladderVertex z (place c s Ud) (place c s Um) (phiPoint (chid' K) (place c s Ud))
        (phiPoint (chim' K) (place c s Um))) R v x u y
        = kToR (fun k => ladderVertex z Ud Um (phiPoint (chid k) Ud) (phiPoint (chim k) Um)) (c.emb R + c.pos u - c.pos v)
          (c.orb v) (c.orb x) (c.orb u) (c.orb y)) ∧
      (∀ k, Crossed s.r (ladderVertex z Ud Um (phiPoint (chid k) Ud) (phiPoint (chim k) Um))) ∧
      ∀ K, Crossed (Near c s) (ladderVertex z (place c s Ud) (place c s Um) (phiPoint (chid' K) (place c s Ud)) (phiPoint (chim' K) (place c s Um))) := by
  refine ⟨fun R v x u y h1 h2 => ?_, fun k => ladder_crossed z (onsite_crossed hd) (onsite_crossed hm) (phi_paired (onsite_paired hd) _)
    (phi_paired (onsite_paired hm) _),
    fun K => ladder_crossed z (place_crossed' Ud) (place_crossed' Um) (phi_paired (place_paired Ud) _) (phi_paired (place_paired Um) _)⟩
  have p1 := phi_pairOf ha hd hcd (-R) u x v y h2 h1
  have p2 := phi_pairOf ha hm hcm (-R) u x v y h2 h1
  rw [show c.emb (-R) + c.pos v - c.pos u = -(c.emb R + c.pos u - c.pos v) by rw [map_neg]; abel] at p1 p2
  rw [kToR_ladder, kToR_ladder, p1, p2, place_crossed ha hd R v x u y h1 h2, place_crossed ha hm R v x u y h1 h2]

/-- C128: the singlet and the triplet vertex of the random phase approximation in another cell: they are the same functions of the
lattice vector from the atom of the *first* to the atom of the third index, the opposite of what the product needs. -/
theorem C128_vertex_actual (ha : Atoms c s) {Ud Um : Bubble.T4 o} (hd : Onsite s Ud) (hm : Onsite s Um) {chid chim : Lat n → Bubble.T4 o}
    {chid' chim' : Lat m → Bubble.T4 O} (hcd : PairOf c s chid chid') (hcm : PairOf c s chim chim')
    (vertex : ∀ {o : Type} [Fintype o] [DecidableEq o], Bubble.T4 o → Bubble.T4 o → Bubble.T4 o → Bubble.T4 o → Bubble.T4 o)
    (hv : (@vertex = fun _ _ _ => gammaSinglet) ∨ @vertex = fun _ _ _ => gammaTriplet) :
    let gamma : Lat n → Bubble.T4 o := fun k => vertex Ud Um (phiPoint (chid k) Ud) (phiPoint (chim k) Um)
    let gamma' : Lat m → Bubble.T4 O := fun K => vertex (place c s Ud) (place c s Um) (phiPoint (chid' K) (place c s Ud))
      (phiPoint (chim' K) (place c s Um))
    (∀ R v x u y, Near c s v y → Near c s u x → kToR gamma' R v x u y
        = kToR gamma (c.emb R + c.pos u - c.pos v) (c.orb v) (c.orb x) (c.orb u) (c.orb y)) ∧
      (∀ k, Crossed s.r (gamma k)) ∧ ∀ K, Crossed (Near c s) (gamma' K) := by
  rcases hv with rfl | rfl
  · simp only [singlet_ladder]
    exact ladder_actual ha _ hd hm hcd hcm
  · simp only [triplet_ladder]
    exact ladder_actual ha _ hd hm hcd hcm

end Verif.Supercell
