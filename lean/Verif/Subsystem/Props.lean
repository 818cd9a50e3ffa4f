import Verif.Subsystem.Lemmas
import Verif.Dyson.Model
import Verif.Bubble.Model
import Verif.Eliashberg.Model

/-!
# C127: a subsystem that is not coupled to the rest can be calculated alone

Let no hopping, no self energy and no interaction connect the orbitals `S` with the others. Then every quantity of the whole
system, read at the orbitals of `S`, is the quantity calculated for `S` alone, and no result connects the two parts.
-/

set_option linter.unusedSectionVars false

noncomputable section

namespace Verif.Subsystem

open Verif.Parallel Verif.Fourier

/-- restriction of a matrix -/
def part {s m F : Type*} (ι : s → m) (A : Matrix m m F) : Matrix s s F := A.submatrix ι ι

theorem part_injective_one {s m F : Type*} [DecidableEq s] [DecidableEq m] [Field F] {ι : s → m} (hi : Function.Injective ι) :
    part ι (1 : Matrix m m F) = 1 := Matrix.submatrix_one _ hi

/-- restriction as an additive map -/
def partHom {s m : Type*} (F : Type*) [Field F] (ι : s → m) : Matrix m m F →+ Matrix s s F where
  toFun := part ι
  map_zero' := rfl
  map_add' _ _ := rfl

/-- restriction of a tensor as an additive map -/
def cutHom {s m : Type*} (F : Type*) [Field F] (ι : s → m) : (m → m → m → m → F) →+ (s → s → s → s → F) where
  toFun := cut ι
  map_zero' := rfl
  map_add' _ _ := rfl

/-! ## Dyson equation -/

section Dyson

open Verif.Dyson

variable {F : Type*} [Field F] {m : Type*} [Fintype m] [DecidableEq m] {s : Type*} [Fintype s] [DecidableEq s]
  {W K : Type*} [DecidableEq W] [DecidableEq K] {ι : s → m}

/-- the self energy of the subsystem -/
def partSigma (ι : s → m) : Sigma W K m F → Sigma W K s F
  | .local t => .local fun w => part ι (t w)
  | .lattice t => .lattice fun w k => part ι (t w k)

theorem partSigma_term (σ : Sigma W K m F) (w : W) (k : K) : (partSigma ι σ).term w k = part ι (σ.term w k) := by
  cases σ <;> rfl

theorem mem_prodMesh {wmesh : List W} {kmesh : List K} {p : W × K} (h : p ∈ prodMesh wmesh kmesh) : p.1 ∈ wmesh ∧ p.2 ∈ kmesh := by
  unfold prodMesh at h
  obtain ⟨w, hw, hp⟩ := List.mem_flatMap.1 h
  obtain ⟨k, hk, rfl⟩ := List.mem_map.1 hp
  exact ⟨hw, hk⟩

theorem dyson_apart {T : Set m} {z : F} {e σ : Matrix m m F} (he : Apart T e) (hσ : Apart T σ) :
    Apart T (z • (1 : Matrix m m F) - e - σ)⁻¹ := (((apart_one.smul z).sub he).sub hσ).inv

theorem dyson_part (hi : Function.Injective ι) {z : F} {e σ : Matrix m m F} (he : Apart (Set.range ι) e)
    (hσ : Apart (Set.range ι) σ) (hu : IsUnit (z • (1 : Matrix m m F) - e - σ).det) :
    part ι (z • (1 : Matrix m m F) - e - σ)⁻¹ = (z • (1 : Matrix s s F) - part ι e - part ι σ)⁻¹ := by
  unfold part
  rw [restrict_inv hi (((apart_one.smul z).sub he).sub hσ) hu]
  congr 1
  rw [← part_injective_one (F := F) hi]
  rfl

/-- C127: the Green's functions of the subsystem are those of the subsystem alone. -/
theorem C127_dyson (hi : Function.Injective ι) (ranks : ℕ) (mu : F) (val : W → F) (wmesh : List W) (kmesh : List K)
    (e : K → Matrix m m F) (he : ∀ k ∈ kmesh, Apart (Set.range ι) (e k)) (sigma : Sigma W K m F)
    (hs : ∀ w ∈ wmesh, ∀ k ∈ kmesh, Apart (Set.range ι) (sigma.term w k)) (idelta : F)
    (h0 : ∀ w ∈ wmesh, ∀ k ∈ kmesh, IsUnit ((val w + mu) • (1 : Matrix m m F) - e k).det)
    (h1 : ∀ w ∈ wmesh, ∀ k ∈ kmesh, IsUnit ((val w + idelta + mu) • (1 : Matrix m m F) - e k - sigma.term w k).det) :
    latticeDysonG0Xk ranks mu val wmesh kmesh (fun k => part ι (e k))
        = (fun p => part ι (latticeDysonG0Xk ranks mu val wmesh kmesh e p)) ∧
      latticeDysonGXk ranks mu val wmesh kmesh (fun k => part ι (e k)) (partSigma ι sigma) idelta
        = (fun p => part ι (latticeDysonGXk ranks mu val wmesh kmesh e sigma idelta p)) ∧
      latticeDysonGX ranks mu val wmesh kmesh (fun k => part ι (e k)) (partSigma ι sigma) idelta
        = (fun w => part ι (latticeDysonGX ranks mu val wmesh kmesh e sigma idelta w)) ∧
      (∀ p, Apart (Set.range ι) (latticeDysonG0Xk ranks mu val wmesh kmesh e p)) ∧
      (∀ p, Apart (Set.range ι) (latticeDysonGXk ranks mu val wmesh kmesh e sigma idelta p)) ∧
      ∀ w, Apart (Set.range ι) (latticeDysonGX ranks mu val wmesh kmesh e sigma idelta w) := by
  have e0 : ∀ (z : F) (k : K), (z • (1 : Matrix m m F) - e k) = z • (1 : Matrix m m F) - e k - 0 := fun _ _ => (sub_zero _).symm
  refine ⟨?_, ?_, ?_, ?_, ?_, ?_⟩
  · refine distributedAssign_map (partHom F ι) _ _ _ _ fun p hp => ?_
    obtain ⟨hw, hk⟩ := mem_prodMesh hp
    change ((val p.1 + mu) • (1 : Matrix s s F) - part ι (e p.2))⁻¹ = part ι ((val p.1 + mu) • (1 : Matrix m m F) - e p.2)⁻¹
    rw [e0, dyson_part hi (he _ hk) apart_zero (by rw [← e0]; exact h0 _ hw _ hk)]
    congr 1
    exact (sub_zero _).symm
  · refine distributedAssign_map (partHom F ι) _ _ _ _ fun p hp => ?_
    obtain ⟨hw, hk⟩ := mem_prodMesh hp
    dsimp only
    rw [partSigma_term]
    exact (dyson_part hi (he _ hk) (hs _ hw _ hk) (h1 _ hw _ hk)).symm
  · funext w
    unfold latticeDysonGX
    have := congrFun (distributedAccumulate_map (partHom F ι) ranks kmesh
      (fun k w => if w ∈ wmesh then ((val w + idelta + mu) • (1 : Matrix m m F) - e k - sigma.term w k)⁻¹ else 0)
      (fun k w => if w ∈ wmesh then ((val w + idelta + mu) • (1 : Matrix s s F) - part ι (e k)
        - (partSigma ι sigma).term w k)⁻¹ else 0) fun k hk w => ?_) w
    · rw [this]; rfl
    · by_cases hw : w ∈ wmesh
      · rw [if_pos hw, if_pos hw, partSigma_term]
        exact (dyson_part hi (he _ hk) (hs _ hw _ hk) (h1 _ hw _ hk)).symm
      · rw [if_neg hw, if_neg hw]; rfl
  · refine distributedAssign_ind _ apart_zero (fun _ _ => Apart.add) _ _ _ fun p hp => ?_
    obtain ⟨hw, hk⟩ := mem_prodMesh hp
    rw [e0]
    exact dyson_apart (he _ hk) apart_zero
  · refine distributedAssign_ind _ apart_zero (fun _ _ => Apart.add) _ _ _ fun p hp => ?_
    obtain ⟨hw, hk⟩ := mem_prodMesh hp
    exact dyson_apart (he _ hk) (hs _ hw _ hk)
  · intro w
    refine Apart.smul _ (distributedAccumulate_ind _ apart_zero (fun _ _ => Apart.add) _ _ _ (fun k hk w => ?_) w)
    by_cases hw : w ∈ wmesh
    · rw [if_pos hw]; exact dyson_apart (he _ hk) (hs _ hw _ hk)
    · rw [if_neg hw]; exact apart_zero

end Dyson

/-! ## Bubbles -/

section Bubble

open Verif.Bubble

variable {d : ℕ} {n : Fin d → ℕ} [∀ i, NeZero (n i)] {o : Type*} [Fintype o] [DecidableEq o] {s : Type*} [Fintype s]
  [DecidableEq s] {ι : s → o}

theorem linked_gg {S : Set o} {x y : o → o → ℂ} (hx : Apart S (Matrix.of x)) (hy : Apart S (Matrix.of y)) (c : ℂ) :
    Linked S fun i j k l => c * (x l i * y j k) := fun i j k l => by
  rcases hx l i with h1 | h1
  · rcases hy j k with h2 | h2
    · exact .inl ⟨h1.symm, h2⟩
    · exact .inr (by dsimp only; rw [show y j k = 0 from h2, mul_zero, mul_zero])
  · exact .inr (by dsimp only; rw [show x l i = 0 from h1, zero_mul, mul_zero])

/-- C127: the bubbles of the subsystem are made of its Green's functions, and an excitation that leaves the subsystem does not
come back as another one. -/
theorem C127_bubble (ranks : ℕ) (beta : ℂ) (rmesh : List (Lat n)) (g : G n o) (L : ℕ) (gt : ℕ → Lat n → o → o → ℂ)
    (hg : ∀ w k, Apart (Set.range ι) (Matrix.of (g w k))) (ht : ∀ t r, Apart (Set.range ι) (Matrix.of (gt t r))) :
    (∀ r w nu, chi0rFromGr ranks beta rmesh (fun w k a b => g w k (ι a) (ι b)) r w nu
        = cut ι (chi0rFromGr ranks beta rmesh g r w nu)) ∧
      (∀ w q nu, chi0nFromGwk beta (fun w k a b => g w k (ι a) (ι b)) w q nu = cut ι (chi0nFromGwk beta g w q nu)) ∧
      (∀ r, chi0W0r ranks beta L rmesh (fun t r a b => gt t r (ι a) (ι b)) r = cut ι (chi0W0r ranks beta L rmesh gt r)) ∧
      (∀ r w nu, Linked (Set.range ι) (chi0rFromGr ranks beta rmesh g r w nu)) ∧
      (∀ w q nu, Linked (Set.range ι) (chi0nFromGwk beta g w q nu)) ∧
      ∀ r, Linked (Set.range ι) (chi0W0r ranks beta L rmesh gt r) := by
  have hpt : ∀ r w nu, Linked (Set.range ι) (chi0rPoint beta g r w nu) := by
    intro r w nu
    have := linked_gg (hg nu r) (hg (nu + w) (-r)) (-beta)
    have e : chi0rPoint beta g r w nu = fun i j k l => -beta * (g nu r l i * g (nu + w) (-r) j k) := by
      funext i j k l
      rw [chi0rPoint, mul_assoc]
    rw [e]; exact this
  have htp : ∀ r t, Linked (Set.range ι) (chi0tPoint L gt r t) := by
    intro r t
    have := linked_gg (ht t r) (ht (L - t) (-r)) 1
    simp only [one_mul] at this
    exact this
  refine ⟨?_, ?_, ?_, ?_, ?_, ?_⟩
  · intro r w nu
    have := congrFun (distributedAssign_map (M := ℤ → ℤ → T4 o) (M' := ℤ → ℤ → T4 s)
      { toFun := fun x w nu => cut ι (x w nu), map_zero' := rfl, map_add' := fun _ _ => rfl } ranks rmesh
      (fun r => chi0rPoint beta g r) (fun r => chi0rPoint beta (fun w k a b => g w k (ι a) (ι b)) r) fun _ _ => rfl) r
    exact congrFun (congrFun this w) nu
  · intro w q nu
    rfl
  · intro r
    refine congrFun (distributedAssign_map (cutHom ℂ ι) _ _ _ _ fun r _ => ?_) r
    funext a b c d
    change _ = trapz beta L (chi0tPoint L gt r) (ι a) (ι b) (ι c) (ι d)
    simp only [trapz, Pi.smul_apply, Pi.sub_apply, Finset.sum_apply]
    rfl
  · intro r w nu
    exact distributedAssign_ind (fun x : ℤ → ℤ → T4 o => Linked (Set.range ι) (x w nu)) linked_zero (fun _ _ => Linked.add)
      _ _ _ (fun r _ => hpt r w nu) r
  · intro w q nu a b c d
    by_cases h : Side (Set.range ι) a d ∧ Side (Set.range ι) b c
    · exact .inl h
    · refine .inr ?_
      rw [chi0nFromGwk, Finset.sum_eq_zero, zero_mul]
      intro k _
      have := (linked_gg (hg nu k) (hg (nu + w) (k - q)) 1 a b c d).resolve_left h
      dsimp only at this
      rw [one_mul] at this
      rw [this, neg_zero]
  · intro r
    refine distributedAssign_ind _ linked_zero (fun _ _ => Linked.add) _ _ _ (fun r _ => ?_) r
    have hsum : Linked (Set.range ι) (∑ t ∈ Finset.range (L + 1), chi0tPoint L gt r t) :=
      Finset.sum_induction _ _ (fun _ _ => Linked.add) linked_zero fun t _ => htp r t
    rw [trapz, sub_eq_add_neg, sub_eq_add_neg, ← neg_smul, ← neg_smul]
    exact ((hsum.add ((htp r 0).smul _)).add ((htp r L).smul _)).smul _

end Bubble

/-! ## Random phase approximation and screening -/

section Rpa

open Verif.Rpa

variable {F : Type*} [Field F] {o : Type*} [Fintype o] [DecidableEq o] {s : Type*} [Fintype s] [DecidableEq s] {ι : s → o}
  {P W K : Type*} [DecidableEq P] [DecidableEq W] [DecidableEq K]

theorem denom_part (hi : Function.Injective ι) {chi U : T4 o F} (hc : Linked (Set.range ι) chi) :
    (1 - pairMat chi * pairMat U).submatrix (Prod.map ι ι) (Prod.map ι ι) = 1 - pairMat (cut ι chi) * pairMat (cut ι U) := by
  rw [pairMat_cut, pairMat_cut, ← restrict_mul (pair_injective hi) (by rw [range_pair]; exact hc.apart),
    ← Matrix.submatrix_one _ (pair_injective hi)]
  rfl

theorem denom_apart {S : Set o} {chi U : T4 o F} (hc : Linked S chi) (hU : Separate S U) :
    Apart (pairSet S) (1 - pairMat chi * pairMat U) := apart_one.sub (hc.apart.mul hU.linked.apart)

/-- one point of the random phase approximation -/
theorem rpaPoint_part (hi : Function.Injective ι) {chi0 U : T4 o F} (hc : Linked (Set.range ι) chi0)
    (hU : Separate (Set.range ι) U) (hu : IsUnit (1 - pairMat chi0 * pairMat U).det) :
    rpaPoint (cut ι chi0) (cut ι U) = cut ι (rpaPoint chi0 U) ∧ Linked (Set.range ι) (rpaPoint chi0 U) := by
  have hap := denom_apart hc hU
  have hap' : Apart (Set.range (Prod.map ι ι)) (1 - pairMat chi0 * pairMat U) := by rw [range_pair]; exact hap
  constructor
  · rw [rpaPoint, ← denom_part hi hc, pairMat_cut, ← restrict_inv (pair_injective hi) hap' hu,
      ← restrict_mul (pair_injective hi) hap'.inv]
    rfl
  · -- chi = chi0 + (chi0 U) chi
    have hsolve : rpaPoint chi0 U = chi0 + matTensor (pairMat (matTensor (pairMat chi0 * pairMat U))
        * ((1 - pairMat chi0 * pairMat U)⁻¹ * pairMat chi0)) := by
      have h1 : (1 - pairMat chi0 * pairMat U) * ((1 - pairMat chi0 * pairMat U)⁻¹ * pairMat chi0) = pairMat chi0 := by
        rw [← mul_assoc, Matrix.mul_nonsing_inv _ hu, one_mul]
      have h2 : (1 - pairMat chi0 * pairMat U)⁻¹ * pairMat chi0
          = pairMat chi0 + pairMat chi0 * pairMat U * ((1 - pairMat chi0 * pairMat U)⁻¹ * pairMat chi0) := by
        rw [sub_mul, one_mul] at h1
        exact sub_eq_iff_eq_add.1 h1
      rw [rpaPoint]
      conv_lhs => rw [h2]
      rfl
    rw [hsolve]
    refine hc.add (Separate.linked (separate_mul (separate_linked_mul hc hU) ?_ ?_))
    · exact hap.inv.mul hc.apart
    · exact (denom_apart hc.compl hU.compl).inv.mul hc.compl.apart

/-- one point of the screened interaction -/
theorem screenedBubblePoint_part (hi : Function.Injective ι) {chi V : T4 o F} (hc : Linked (Set.range ι) chi)
    (hV : Separate (Set.range ι) V) (hu : IsUnit (1 - pairMat chi * pairMat V).det) :
    screenedBubblePoint (cut ι chi) (cut ι V) = cut ι (screenedBubblePoint chi V) ∧
      Separate (Set.range ι) (screenedBubblePoint chi V) := by
  have hap := denom_apart hc hV
  have hap' : Apart (Set.range (Prod.map ι ι)) (1 - pairMat chi * pairMat V) := by rw [range_pair]; exact hap
  constructor
  · rw [screenedBubblePoint, ← denom_part hi hc, pairMat_cut, ← restrict_inv (pair_injective hi) hap' hu,
      ← restrict_mul' (pair_injective hi) hap'.inv]
    rfl
  · exact separate_mul hV hap.inv (denom_apart hc.compl hV.compl).inv

theorem screenedGeneralizedPoint_part (hi : Function.Injective ι) {chi V : T4 o F} (hc : Linked (Set.range ι) chi)
    (hV : Separate (Set.range ι) V) :
    screenedGeneralizedPoint (cut ι chi) (cut ι V) = cut ι (screenedGeneralizedPoint chi V) ∧
      Separate (Set.range ι) (screenedGeneralizedPoint chi V) := by
  have hc' : Apart (Set.range (Prod.map ι ι)) (pairMat chi) := by rw [range_pair]; exact hc.apart
  have hV' : Apart (Set.range (Prod.map ι ι)) (pairMat V) := by rw [range_pair]; exact hV.linked.apart
  constructor
  · rw [screenedGeneralizedPoint, pairMat_cut, pairMat_cut, ← restrict_mul (pair_injective hi) hV',
      ← restrict_mul (pair_injective hi) (hV'.mul hc')]
    rfl
  · have h : screenedGeneralizedPoint chi V = matTensor (pairMat V * (pairMat chi * pairMat V)) + V := by
      rw [screenedGeneralizedPoint, mul_assoc]
      rfl
    rw [h]
    exact (separate_mul hV (hc.apart.mul hV.linked.apart) (hc.compl.apart.mul hV.compl.linked.apart)).add hV

/-- the explicit loops compute the same as the matrix product -/
theorem screenedOptPoint_eq (chi V : T4 o F) : screenedOptPoint chi V = screenedBubblePoint chi V := by
  have hd : pairMat (fun a b c d => matTensor (1 : Matrix (o × o) (o × o) F) a b c d - ∑ e, ∑ f, chi a b e f * V e f c d)
      = 1 - pairMat chi * pairMat V := by
    ext p q
    rw [Matrix.sub_apply, Matrix.mul_apply, Fintype.sum_prod_type]
    rfl
  unfold screenedOptPoint screenedBubblePoint
  dsimp only
  rw [hd]
  funext a b c d
  rw [matTensor, Matrix.mul_apply, Fintype.sum_prod_type]
  rfl

/-- the interaction of the subsystem -/
def cutBare (ι : s → o) : Bare W K o F → Bare W K s F
  | .static v => .static fun k => cut ι (v k)
  | .dynamic v => .dynamic fun w k => cut ι (v w k)

theorem cutBare_at (V : Bare W K o F) (w : W) (k : K) : (cutBare ι V).at w k = cut ι (V.at w k) := by
  cases V <;> rfl

/-- C127: susceptibility of the random phase approximation and screened interaction of the subsystem are those calculated
alone. The susceptibility has the structure of a bubble, the screened interaction does not connect the parts. -/
theorem C127_rpa (hi : Function.Injective ι) (ranks : ℕ) (mesh : List P) (chi0 : P → T4 o F) (U : T4 o F)
    (hc : ∀ p ∈ mesh, Linked (Set.range ι) (chi0 p)) (hU : Separate (Set.range ι) U)
    (hu : ∀ p ∈ mesh, IsUnit (1 - pairMat (chi0 p) * pairMat U).det) :
    solveRpaPH ranks mesh (fun p => cut ι (chi0 p)) (cut ι U) = (fun p => cut ι (solveRpaPH ranks mesh chi0 U p)) ∧
      ∀ p, Linked (Set.range ι) (solveRpaPH ranks mesh chi0 U p) :=
  ⟨distributedAssign_map (cutHom F ι) _ _ _ _ fun p hp => (rpaPoint_part hi (hc p hp) hU (hu p hp)).1,
    distributedAssign_ind _ linked_zero (fun _ _ => Linked.add) _ _ _ fun p hp => (rpaPoint_part hi (hc p hp) hU (hu p hp)).2⟩

/-- C127: the screened interaction in its three forms. -/
theorem C127_screened (hi : Function.Injective ι) (ranks : ℕ) (wk : List (W × K)) (kmesh vkmesh : List K) (chi : W × K → T4 o F)
    (V : Bare W K o F) (Vk : K → T4 o F) (hc : ∀ p ∈ wk, Linked (Set.range ι) (chi p))
    (hV : ∀ p ∈ wk, Separate (Set.range ι) (V.at p.1 p.2)) (hVk : ∀ p ∈ wk, Separate (Set.range ι) (Vk p.2))
    (hu : ∀ p ∈ wk, IsUnit (1 - pairMat (chi p) * pairMat (V.at p.1 p.2)).det)
    (huk : ∀ p ∈ wk, IsUnit (1 - pairMat (chi p) * pairMat (Vk p.2)).det) :
    screenedBubble ranks wk kmesh vkmesh (fun p => cut ι (chi p)) (cutBare ι V)
        = (screenedBubble ranks wk kmesh vkmesh chi V).map (fun f p => cut ι (f p)) ∧
      screenedGeneralized ranks wk kmesh vkmesh (fun p => cut ι (chi p)) (cutBare ι V)
        = (screenedGeneralized ranks wk kmesh vkmesh chi V).map (fun f p => cut ι (f p)) ∧
      screenedOpt ranks wk kmesh vkmesh (fun p => cut ι (chi p)) (fun k => cut ι (Vk k))
        = (screenedOpt ranks wk kmesh vkmesh chi Vk).map (fun f p => cut ι (f p)) ∧
      (∀ f, screenedBubble ranks wk kmesh vkmesh chi V = .ok f → ∀ p, Separate (Set.range ι) (f p)) ∧
      (∀ f, screenedGeneralized ranks wk kmesh vkmesh chi V = .ok f → ∀ p, Separate (Set.range ι) (f p)) ∧
      ∀ f, screenedOpt ranks wk kmesh vkmesh chi Vk = .ok f → ∀ p, Separate (Set.range ι) (f p) := by
  refine ⟨?_, ?_, ?_, ?_, ?_, ?_⟩
  · unfold screenedBubble
    split_ifs
    · rfl
    · refine congrArg Except.ok (distributedAssign_map (cutHom F ι) _ _ _ _ fun p hp => ?_)
      rw [cutBare_at]
      exact (screenedBubblePoint_part hi (hc p hp) (hV p hp) (hu p hp)).1
  · unfold screenedGeneralized
    split_ifs
    · rfl
    · refine congrArg Except.ok (distributedAssign_map (cutHom F ι) _ _ _ _ fun p hp => ?_)
      rw [cutBare_at]
      exact (screenedGeneralizedPoint_part hi (hc p hp) (hV p hp)).1
  · unfold screenedOpt
    split_ifs
    · rfl
    · refine congrArg Except.ok (distributedAssign_map (cutHom F ι) _ _ _ _ fun p hp => ?_)
      rw [screenedOptPoint_eq, screenedOptPoint_eq]
      exact (screenedBubblePoint_part hi (hc p hp) (hVk p hp) (huk p hp)).1
  · intro f hf
    unfold screenedBubble at hf
    split_ifs at hf
    rw [← Except.ok.inj hf]
    exact distributedAssign_ind _ separate_zero (fun _ _ => Separate.add) _ _ _ fun p hp =>
      (screenedBubblePoint_part hi (hc p hp) (hV p hp) (hu p hp)).2
  · intro f hf
    unfold screenedGeneralized at hf
    split_ifs at hf
    rw [← Except.ok.inj hf]
    exact distributedAssign_ind _ separate_zero (fun _ _ => Separate.add) _ _ _ fun p hp =>
      (screenedGeneralizedPoint_part hi (hc p hp) (hV p hp)).2
  · intro f hf
    unfold screenedOpt at hf
    split_ifs at hf
    rw [← Except.ok.inj hf]
    refine distributedAssign_ind _ separate_zero (fun _ _ => Separate.add) _ _ _ fun p hp => ?_
    rw [screenedOptPoint_eq]
    exact (screenedBubblePoint_part hi (hc p hp) (hVk p hp) (huk p hp)).2

end Rpa

end Verif.Subsystem
