import Verif.Subsystem.Props
import Verif.Bse.Lemmas

/-!
# C127: uncoupled subsystems, Bethe-Salpeter and Eliashberg equations
-/

set_option linter.unusedSectionVars false

noncomputable section

namespace Verif.Subsystem

open Verif.Parallel Verif.Fourier

/-! ## Bethe-Salpeter equation -/

section Bse

open Verif.Bse

variable {F : Type*} [Field F] {o : Type*} [Fintype o] [DecidableEq o] {s : Type*} [Fintype s] [DecidableEq s] {ι : s → o}
  {ν : Type*} [Fintype ν] [DecidableEq ν] {W K : Type*} [DecidableEq W] [DecidableEq K]

/-- pairs of the subsystem are not connected with other pairs -/
def Pairs (S : Set o) (t : T4 o F) : Prop := ∀ a b c d, (a ∈ S ∧ b ∈ S ↔ c ∈ S ∧ d ∈ S) ∨ t a b c d = 0

theorem Linked.pairs {S : Set o} {t : T4 o F} (h : Linked S t) : Pairs S t := fun a b c d =>
  (h a b c d).imp_left fun h => ⟨fun x => ⟨h.2.1 x.2, h.1.1 x.1⟩, fun x => ⟨h.1.2 x.2, h.2.2 x.1⟩⟩

theorem pairs_zero {S : Set o} : Pairs S (0 : T4 o F) := fun _ _ _ _ => .inr rfl

theorem Pairs.add {S : Set o} {t u : T4 o F} (h : Pairs S t) (h' : Pairs S u) : Pairs S (t + u) := fun a b c d => by
  rcases h a b c d with h1 | h1
  · exact .inl h1
  · rcases h' a b c d with h2 | h2
    · exact .inl h2
    · exact .inr (by change t a b c d + u a b c d = 0; rw [h1, h2, add_zero])

/-- frequencies with a pair of the subsystem -/
def tripleSet (ν : Type*) (S : Set o) : Set (ν × o × o) := {x | x.2.1 ∈ S ∧ x.2.2 ∈ S}

/-- inclusion of the pairs of the subsystem -/
def triple (ν : Type*) (ι : s → o) : ν × s × s → ν × o × o := Prod.map id (Prod.map ι ι)

theorem triple_injective (hi : Function.Injective ι) : Function.Injective (triple ν ι) :=
  Function.injective_id.prodMap (hi.prodMap hi)

theorem range_triple : Set.range (triple ν ι) = tripleSet ν (Set.range ι) := by
  ext ⟨x, a, b⟩
  constructor
  · rintro ⟨⟨y, c, e⟩, h⟩
    simp only [triple, Prod.map, Prod.mk.injEq] at h
    exact ⟨⟨c, h.2.1⟩, ⟨e, h.2.2⟩⟩
  · rintro ⟨⟨c, hc⟩, ⟨e, he⟩⟩
    exact ⟨(x, c, e), by simp only [triple, Prod.map, id_eq, hc, he]⟩

/-- restriction of a vertex -/
def cut6 (ι : s → o) (t : T6 ν o F) : T6 ν s F := fun n m => cut ι (t n m)

theorem chMat_cut6 (t : T6 ν o F) : chMat .PH (cut6 ι t) = (chMat .PH t).submatrix (triple ν ι) (triple ν ι) := rfl

theorem cut6_chTensor (M : Matrix (ν × o × o) (ν × o × o) F) :
    cut6 ι (chTensor .PH M) = chTensor .PH (M.submatrix (triple ν ι) (triple ν ι)) := rfl

theorem pairs_iff {S : Set o} {t : T6 ν o F} : (∀ n m, Pairs S (t n m)) ↔ Apart (tripleSet ν S) (chMat .PH t) := by
  constructor
  · intro h r c
    refine (h r.1 c.1 r.2.1 r.2.2 c.2.2 c.2.1).imp_left fun h => ?_
    exact h.trans and_comm
  · intro h n m a b c d
    refine (h (n, a, b) (m, d, c)).imp_left fun h => ?_
    exact h.trans and_comm

theorem diagEmbed_pairs {S : Set o} {c : ν → T4 o F} (h : ∀ n, Pairs S (c n)) (n m : ν) : Pairs S (diagEmbed c n m) := by
  unfold diagEmbed
  split_ifs
  · exact h n
  · exact pairs_zero

theorem cut6_diagEmbed (c : ν → T4 o F) : cut6 ι (diagEmbed c) = diagEmbed fun n => cut ι (c n) := by
  funext n m
  unfold cut6 diagEmbed
  split_ifs <;> rfl

theorem inverse_part (hi : Function.Injective ι) {t : T6 ν o F} (h : ∀ n m, Pairs (Set.range ι) (t n m))
    (hu : IsUnit (chMat .PH t).det) : inverse .PH (cut6 ι t) = cut6 ι (inverse .PH t) := by
  unfold inverse
  rw [cut6_chTensor, chMat_cut6,
    restrict_inv (triple_injective hi) (by rw [range_triple]; exact pairs_iff.1 h) hu]

theorem inverse_pairs {S : Set o} {t : T6 ν o F} (h : ∀ n m, Pairs S (t n m)) (n m : ν) : Pairs S (inverse .PH t n m) := by
  refine pairs_iff.2 ?_ n m
  unfold inverse
  rw [chMat_chTensor]
  exact (pairs_iff.1 h).inv

theorem product_part (hi : Function.Injective ι) {t : T6 ν o F} (h : ∀ n m, Pairs (Set.range ι) (t n m)) (u : T6 ν o F) :
    product .PH (cut6 ι t) (cut6 ι u) = cut6 ι (product .PH t u) := by
  unfold product
  rw [cut6_chTensor, chMat_cut6, chMat_cut6,
    restrict_mul (triple_injective hi) (by rw [range_triple]; exact pairs_iff.1 h)]

theorem product_pairs {S : Set o} {t u : T6 ν o F} (h : ∀ n m, Pairs S (t n m)) (h' : ∀ n m, Pairs S (u n m)) (n m : ν) :
    Pairs S (product .PH t u n m) := by
  refine pairs_iff.2 ?_ n m
  unfold product
  rw [chMat_chTensor]
  exact (pairs_iff.1 h).mul (pairs_iff.1 h')

/-- C127: one point of the Bethe-Salpeter equation -/
theorem bsePoint_part (hi : Function.Injective ι) {c g : T6 ν o F} (hc : ∀ n m, Pairs (Set.range ι) (c n m))
    (hg : ∀ n m, Pairs (Set.range ι) (g n m)) (hu : IsUnit (1 - chMat .PH c * chMat .PH g).det) :
    bsePoint (cut6 ι c) (cut6 ι g) = cut6 ι (bsePoint c g) ∧ ∀ n m, Pairs (Set.range ι) (bsePoint c g n m) := by
  have hden : ∀ n m, Pairs (Set.range ι) ((identity .PH - product .PH c g : T6 ν o F) n m) := by
    refine pairs_iff.2 ?_
    rw [chMat_sub, chMat_identity, chMat_product]
    exact apart_one.sub ((pairs_iff.1 hc).mul (pairs_iff.1 hg))
  have hdu : IsUnit (chMat .PH (identity .PH - product .PH c g : T6 ν o F)).det := by
    rw [chMat_sub, chMat_identity, chMat_product]; exact hu
  have hid : (identity .PH - product .PH (cut6 ι c) (cut6 ι g) : T6 ν s F) = cut6 ι (identity .PH - product .PH c g) := by
    rw [product_part hi hc]
    refine chMat_injective .PH ?_
    rw [chMat_sub, chMat_identity, chMat_cut6, chMat_cut6, chMat_sub, chMat_identity, ← Matrix.submatrix_one _ (triple_injective hi)]
    rfl
  constructor
  · unfold bsePoint
    rw [hid, inverse_part hi hden hdu, product_part hi (inverse_pairs hden)]
  · exact product_pairs (inverse_pairs hden) hc

/-- C127: the irreducible and the reducible vertex of an impurity with uncoupled parts are those of the parts. -/
theorem C127_local_vertex (hi : Function.Injective ι) (chi0 chi : W → T6 ν o F)
    (h0 : ∀ w n m, Pairs (Set.range ι) (chi0 w n m)) (h : ∀ w n m, Pairs (Set.range ι) (chi w n m))
    (hu0 : ∀ w, IsUnit (chMat .PH (chi0 w)).det) (hu : ∀ w, IsUnit (chMat .PH (chi w)).det) :
    (∀ w, solveLocalBse (fun w => cut6 ι (chi0 w)) (fun w => cut6 ι (chi w)) w = cut6 ι (solveLocalBse chi0 chi w)) ∧
      (∀ w, reducibleVertexF (fun w => cut6 ι (chi0 w)) (fun w => cut6 ι (chi w)) w = cut6 ι (reducibleVertexF chi0 chi w)) ∧
      (∀ w n m, Pairs (Set.range ι) (solveLocalBse chi0 chi w n m)) ∧
      ∀ w n m, Pairs (Set.range ι) (reducibleVertexF chi0 chi w n m) := by
  have hd : ∀ w n m, Pairs (Set.range ι) ((chi w - chi0 w : T6 ν o F) n m) := by
    intro w
    refine pairs_iff.2 ?_
    rw [chMat_sub]
    exact (pairs_iff.1 (h w)).sub (pairs_iff.1 (h0 w))
  refine ⟨fun w => ?_, fun w => ?_, fun w => ?_, fun w => ?_⟩
  · change inverse .PH (cut6 ι (chi0 w)) - inverse .PH (cut6 ι (chi w)) = _
    rw [inverse_part hi (h0 w) (hu0 w), inverse_part hi (h w) (hu w)]
    rfl
  · change product .PH (inverse .PH (cut6 ι (chi0 w))) (product .PH (cut6 ι (chi w - chi0 w)) (inverse .PH (cut6 ι (chi0 w)))) = _
    rw [inverse_part hi (h0 w) (hu0 w), product_part hi (hd w), product_part hi (inverse_pairs (h0 w))]
    rfl
  · refine pairs_iff.2 ?_
    change Apart _ (chMat .PH (inverse .PH (chi0 w) - inverse .PH (chi w)))
    rw [chMat_sub]
    exact (pairs_iff.1 (inverse_pairs (h0 w))).sub (pairs_iff.1 (inverse_pairs (h w)))
  · exact product_pairs (inverse_pairs (h0 w)) (product_pairs (hd w) (inverse_pairs (h0 w)))

theorem traceNu_cut (beta : F) (t : T6 ν o F) : traceNu beta (cut6 ι t) = cut ι (traceNu beta t) := rfl

theorem scalarProductPH_apply {q : Type*} [Fintype q] [DecidableEq q] (vL : ν → T4 q F) (M : T6 ν q F) (vR : ν → T4 q F)
    (a b c d : q) : scalarProductPH vL M vR a b c d
      = ∑ j : ν × q × q, (∑ i : ν × q × q, vL i.1 i.2.1 i.2.2 b a * M i.1 j.1 i.2.1 i.2.2 j.2.1 j.2.2)
        * vR j.1 j.2.2 j.2.1 c d := rfl

/-- the triangular vertices act on the pairs of the subsystem only -/
theorem scalarProductPH_part (hi : Function.Injective ι) {L R : ν → T4 o F} {t : T6 ν o F} (hL : ∀ n, Pairs (Set.range ι) (L n))
    (ht : ∀ n m, Pairs (Set.range ι) (t n m)) :
    scalarProductPH (fun n => cut ι (L n)) (cut6 ι t) (fun n => cut ι (R n)) = cut ι (scalarProductPH L t R) := by
  funext a b c d
  rw [scalarProductPH_apply]
  change _ = scalarProductPH L t R (ι a) (ι b) (ι c) (ι d)
  rw [scalarProductPH_apply]
  have hin : ∀ j : ν × o × o, (∑ i : ν × s × s, L i.1 (ι i.2.1) (ι i.2.2) (ι b) (ι a)
      * t i.1 j.1 (ι i.2.1) (ι i.2.2) j.2.1 j.2.2)
      = ∑ i : ν × o × o, L i.1 i.2.1 i.2.2 (ι b) (ι a) * t i.1 j.1 i.2.1 i.2.2 j.2.1 j.2.2 := by
    intro j
    refine Fintype.sum_of_injective (triple ν ι) (triple_injective hi) _ _ (fun i hn => ?_) fun i => rfl
    rw [range_triple] at hn
    rcases hL i.1 i.2.1 i.2.2 (ι b) (ι a) with h | h
    · exact absurd (h.2 ⟨⟨b, rfl⟩, ⟨a, rfl⟩⟩) hn
    · rw [h, zero_mul]
  refine Fintype.sum_of_injective (triple ν ι) (triple_injective hi) _ _ (fun j hn => ?_) fun j => ?_
  · rw [range_triple] at hn
    rw [Finset.sum_eq_zero, zero_mul]
    intro i _
    rcases hL i.1 i.2.1 i.2.2 (ι b) (ι a) with h | h
    · rcases ht i.1 j.1 i.2.1 i.2.2 j.2.1 j.2.2 with h' | h'
      · exact absurd (h'.1 (h.2 ⟨⟨b, rfl⟩, ⟨a, rfl⟩⟩)) hn
      · rw [h', mul_zero]
    · rw [h, zero_mul]
  · change _ = (∑ i : ν × o × o, L i.1 i.2.1 i.2.2 (ι b) (ι a) * t i.1 j.1 i.2.1 i.2.2 (ι j.2.1) (ι j.2.2)) * _
    rw [← hin (j.1, ι j.2.1, ι j.2.2)]
    rfl

/-- C127: the susceptibilities of the Bethe-Salpeter equation and of its dual form, summed over frequencies or not, are those
of the subsystem alone. -/
theorem C127_lattice_bse (hi : Function.Injective ι) (ranks : ℕ) (beta : F) (mesh : List (K × W)) (wkmesh : List (W × K))
    (chi0tail : W → K → T4 o F) (chi0 : W → ν → K → T4 o F) (gamma : W → T6 ν o F) (L : W → ν → T4 o F) (imp : W → T4 o F)
    (hc : ∀ w n k, Pairs (Set.range ι) (chi0 w n k)) (hg : ∀ w n m, Pairs (Set.range ι) (gamma w n m))
    (hL : ∀ w n, Pairs (Set.range ι) (L w n))
    (hu : ∀ k w, IsUnit (1 - chMat .PH (diagEmbed fun n => chi0 w n k) * chMat .PH (gamma w)).det) :
    let c0 : W → ν → K → T4 s F := fun w n k => cut ι (chi0 w n k)
    let g0 : W → T6 ν s F := fun w => cut6 ι (gamma w)
    (∀ k w, chiqFromChi0qAndGamma c0 g0 k w = cut6 ι (chiqFromChi0qAndGamma chi0 gamma k w)) ∧
      (∀ p, (solveLatticeBse ranks beta mesh wkmesh (fun w k => cut ι (chi0tail w k)) c0 g0).1 p
        = cut ι ((solveLatticeBse ranks beta mesh wkmesh chi0tail chi0 gamma).1 p)) ∧
      (∀ p, (solveLatticeBse ranks beta mesh wkmesh (fun w k => cut ι (chi0tail w k)) c0 g0).2 p
        = cut ι ((solveLatticeBse ranks beta mesh wkmesh chi0tail chi0 gamma).2 p)) ∧
      ∀ p, solveLatticeDbse ranks mesh c0 g0 (fun w n => cut ι (L w n)) (fun w => cut ι (imp w)) p
        = cut ι (solveLatticeDbse ranks mesh chi0 gamma L imp p) := by
  intro c0 g0
  have hp : ∀ k w, bsePoint (diagEmbed fun n => c0 w n k) (g0 w) = cut6 ι (bsePoint (diagEmbed fun n => chi0 w n k) (gamma w)) ∧
      ∀ n m, Pairs (Set.range ι) (bsePoint (diagEmbed fun n => chi0 w n k) (gamma w) n m) := fun k w => by
    have := bsePoint_part hi (diagEmbed_pairs fun n => hc w n k) (hg w) (hu k w)
    rw [cut6_diagEmbed] at this
    exact this
  refine ⟨fun k w => (hp k w).1, fun p => ?_, fun p => rfl, fun p => ?_⟩
  · have h1 : chiqSumNuFromChi0qAndGamma ranks beta mesh c0 g0
        = fun p => cutHom F ι (chiqSumNuFromChi0qAndGamma ranks beta mesh chi0 gamma p) := by
      refine distributedAssign_map (cutHom F ι) _ _ _ _ fun p _ => ?_
      rw [(hp p.1 p.2).1]
      rfl
    have h2 : chi0qSumNu ranks beta wkmesh c0 = fun p => cutHom F ι (chi0qSumNu ranks beta wkmesh chi0 p) :=
      distributedAssign_map (cutHom F ι) _ _ _ _ fun p _ => rfl
    change chiqSumNuFromChi0qAndGamma ranks beta mesh c0 g0 p
      + (cut ι (chi0tail p.2 p.1) - chi0qSumNu ranks beta wkmesh c0 (p.2, p.1)) = _
    rw [h1, h2]
    rfl
  · have h1 : chiqSumNuL ranks mesh c0 g0 (fun w n => cut ι (L w n))
        = fun p => cutHom F ι (chiqSumNuL ranks mesh chi0 gamma L p) := by
      refine distributedAssign_map (cutHom F ι) _ _ _ _ fun p _ => ?_
      rw [(hp p.1 p.2).1]
      exact scalarProductPH_part hi (hL p.2) (hp p.1 p.2).2
    change chiqSumNuL ranks mesh c0 g0 (fun w n => cut ι (L w n)) p + cut ι (imp p.2) = _
    rw [h1]
    rfl

end Bse

/-! ## Eliashberg equation -/

section Eliashberg

open Verif.Eliashberg Verif.Bubble

variable {d : ℕ} {n : Fin d → ℕ} [∀ i, NeZero (n i)] {o : Type*} [Fintype o] [DecidableEq o] {s : Type*} [Fintype s]
  [DecidableEq s] {ι : s → o}

/-- restriction of a gap -/
def part2 (ι : s → o) (x : o → o → ℂ) : s → s → ℂ := fun a b => x (ι a) (ι b)

/-- the same as an additive map -/
def part2Hom (ι : s → o) : (o → o → ℂ) →+ (s → s → ℂ) where
  toFun := part2 ι
  map_zero' := rfl
  map_add' _ _ := rfl

theorem gdgPoint_part (hi : Function.Injective ι) {g gm : o → o → ℂ} (hg : Apart (Set.range ι) (Matrix.of g))
    (hm : Apart (Set.range ι) (Matrix.of gm)) (x : o → o → ℂ) :
    gdgPoint (part2 ι g) (part2 ι gm) (part2 ι x) = part2 ι (gdgPoint g gm x) := by
  funext a b
  change (∑ e, ∑ f, _) = ∑ e, ∑ f, g (ι b) f * (starRingEnd ℂ) (gm e (ι a)) * x e f
  refine Fintype.sum_of_injective ι hi _ _ (fun e hn => ?_) fun e => ?_
  · refine Finset.sum_eq_zero fun f _ => ?_
    rcases hm e (ι a) with h | h
    · exact absurd (h.2 ⟨a, rfl⟩) hn
    · rw [show gm e (ι a) = 0 from h, map_zero, mul_zero, zero_mul]
  · refine Fintype.sum_of_injective ι hi _ _ (fun f hn => ?_) fun f => rfl
    rcases hg (ι b) f with h | h
    · exact absurd (h.1 ⟨b, rfl⟩) hn
    · rw [show g (ι b) f = 0 from h, zero_mul, zero_mul]

theorem gammaF_part (hi : Function.Injective ι) {G : T4 o} (hG : Separate (Set.range ι) G) (x : o → o → ℂ) :
    gammaF (cut ι G) (part2 ι x) = part2 ι (gammaF G x) := by
  funext a b
  change (∑ c, ∑ e, _) = ∑ c, ∑ e, -(1 / 2) * G c (ι a) e (ι b) * x e c
  refine Fintype.sum_of_injective ι hi _ _ (fun c hn => ?_) fun c => ?_
  · refine Finset.sum_eq_zero fun e _ => ?_
    rcases hG c (ι a) e (ι b) with h | h
    · exact absurd (h.1.2 ⟨a, rfl⟩) hn
    · rw [h, mul_zero, zero_mul]
  · refine Fintype.sum_of_injective ι hi _ _ (fun e hn => ?_) fun e => rfl
    rcases hG (ι c) (ι a) e (ι b) with h | h
    · exact absurd (h.2.1.1 ⟨c, rfl⟩) hn
    · rw [h, mul_zero, zero_mul]

theorem gammaF_apart {S : Set o} {G : T4 o} (hG : Separate S G) (x : o → o → ℂ) : Apart S (Matrix.of (gammaF G x)) := by
  intro a b
  by_cases h : a ∈ S ↔ b ∈ S
  · exact .inl h
  · refine .inr (Finset.sum_eq_zero fun c _ => Finset.sum_eq_zero fun e _ => ?_)
    rcases hG c a e b with h' | h'
    · exact absurd (h'.1.symm.trans h'.2.2) h
    · rw [h', mul_zero, zero_mul]

theorem gDeltaG_part (hi : Function.Injective ι) (ranks N Ng : ℕ) (lat : List (Lat n)) (g x : ℤ → Lat n → o → o → ℂ)
    (hg : ∀ w k, Apart (Set.range ι) (Matrix.of (g w k))) :
    gDeltaG ranks N Ng lat (fun w k => part2 ι (g w k)) (fun w k => part2 ι (x w k))
      = (gDeltaG ranks N Ng lat g x).map fun f p => part2 ι (f p) := by
  unfold gDeltaG
  split_ifs
  · rfl
  · exact congrArg Except.ok (distributedAssign_map (part2Hom ι) _ _ _ _ fun p _ => gdgPoint_part hi (hg _ _) (hg _ _) _)

theorem list_sum_part2 {P : Type*} (l : List P) (f : P → ℂ) (g : P → ℂ) (h : ∀ p, f p = g p) : (l.map f).sum = (l.map g).sum := by
  rw [show f = g from funext h]

/-- C127: the Eliashberg product of a gap, read at the subsystem, is the product calculated for the subsystem with its part of
the gap. No matter what the gap is: parts of it outside of the subsystem and between the two do not contribute, and the product
does not pair an electron of the subsystem with one of the rest. -/
theorem C127_eliashberg (hi : Function.Injective ι) (ranks N Ng NG : ℕ) (beta : ℝ) (lat : List (Lat n)) (gamma : ℤ → Lat n → T4 o)
    (g x : ℤ → Lat n → o → o → ℂ) (hg : ∀ w k, Apart (Set.range ι) (Matrix.of (g w k)))
    (hG : ∀ w k, Separate (Set.range ι) (gamma w k)) :
    eliashbergProduct ranks N Ng NG beta lat (fun w k => cut ι (gamma w k)) (fun w k => part2 ι (g w k))
        (fun w k => part2 ι (x w k))
      = (eliashbergProduct ranks N Ng NG beta lat gamma g x).map (fun f w k => part2 ι (f w k)) ∧
    ∀ f, eliashbergProduct ranks N Ng NG beta lat gamma g x = .ok f → ∀ w k, Apart (Set.range ι) (Matrix.of (f w k)) := by
  constructor
  · unfold eliashbergProduct
    split_ifs
    · rfl
    · rw [gDeltaG_part hi ranks N Ng lat g x hg]
      cases gDeltaG ranks N Ng lat g x with
      | error e => rfl
      | ok f =>
        simp only [Except.map]
        refine congrArg Except.ok ?_
        funext w k
        have := congrFun (congrFun (distributedAssign_map (M := ℤ → o → o → ℂ) (M' := ℤ → s → s → ℂ)
          { toFun := fun y w => part2 ι (y w), map_zero' := rfl, map_add' := fun _ _ => rfl } ranks lat
          (fun k w a b => ((gapMesh N lat).map fun p => gammaF (gamma (w - p.1) (k - p.2)) (f p) a b).sum
            / (beta * lat.length))
          (fun k w a b => ((gapMesh N lat).map fun p => gammaF (cut ι (gamma (w - p.1) (k - p.2))) (part2 ι (f p)) a b).sum
            / (beta * lat.length)) fun k _ => ?_) k) w
        · exact this
        · funext w a b
          change _ = ((gapMesh N lat).map fun p => gammaF (gamma (w - p.1) (k - p.2)) (f p) (ι a) (ι b)).sum / _
          congr 1
          refine list_sum_part2 _ _ _ fun p => ?_
          rw [gammaF_part hi (hG _ _)]
          rfl
  · intro f hf w k
    unfold eliashbergProduct at hf
    split_ifs at hf
    cases h : gDeltaG ranks N Ng lat g x with
    | error e => rw [h] at hf; cases hf
    | ok y =>
      rw [h] at hf
      rw [← Except.ok.inj hf]
      refine distributedAssign_ind (fun z : ℤ → o → o → ℂ => Apart (Set.range ι) (Matrix.of (z w))) apart_zero
        (fun _ _ h1 h2 => h1.add h2) _ _ _ (fun k _ => ?_) k
      intro a b
      by_cases hab : a ∈ Set.range ι ↔ b ∈ Set.range ι
      · exact .inl hab
      · refine .inr ?_
        change ((gapMesh N lat).map fun p => gammaF (gamma (w - p.1) (k - p.2)) (y p) a b).sum / _ = 0
        rw [List.sum_eq_zero, zero_div]
        intro z hz
        obtain ⟨p, _, rfl⟩ := List.mem_map.1 hz
        exact (gammaF_apart (hG _ _) (y p) a b).resolve_left hab

/-- C127: the product by Fourier transforms, with any transforms of single elements. -/
theorem C127_eliashberg_fft (hi : Function.Injective ι) (ranks N Ng L LG : ℕ) (T : Transforms) (lat : List (Lat n))
    (dyn : ℕ → Lat n → T4 o) (const : Lat n → T4 o) (g x : ℤ → Lat n → o → o → ℂ)
    (hg : ∀ w k, Apart (Set.range ι) (Matrix.of (g w k))) (hd : ∀ t r, Separate (Set.range ι) (dyn t r))
    (hc : ∀ r, Separate (Set.range ι) (const r)) :
    eliashbergProductFFT ranks N Ng L LG T lat (fun t r => cut ι (dyn t r)) (fun r => cut ι (const r))
        (fun w k => part2 ι (g w k)) (fun w k => part2 ι (x w k))
      = (eliashbergProductFFT ranks N Ng L LG T lat dyn const g x).map (fun f w k => part2 ι (f w k)) := by
  have hf : ∀ (f : ℤ × Lat n → o → o → ℂ) t r, fTr T (fun p => part2 ι (f p)) t r = part2 ι (fTr T f t r) := by
    intro f t r
    funext a b
    refine congrArg (fun y => T.toTau y t) (funext fun w => ?_)
    simp only [kToR, fftw, Pi.smul_apply, Finset.sum_apply]
    rfl
  unfold eliashbergProductFFT
  rw [gDeltaG_part hi ranks N Ng lat g x hg]
  cases gDeltaG ranks N Ng lat g x with
  | error e => rfl
  | ok f =>
    simp only [Except.map]
    have hD : dynamicGammaF ranks L LG lat (fun t r => cut ι (dyn t r)) (fTr T fun p => part2 ι (f p))
        = (dynamicGammaF ranks L LG lat dyn (fTr T f)).map fun y p => part2 ι (y p) := by
      unfold dynamicGammaF
      split_ifs
      · rfl
      · refine congrArg Except.ok (distributedAssign_map (part2Hom ι) _ _ _ _ fun p _ => ?_)
        rw [hf, gammaF_part hi (hd _ _)]
        rfl
    rw [hD]
    cases dynamicGammaF ranks L LG lat dyn (fTr T f) with
    | error e => rfl
    | ok y =>
      simp only [Except.map]
      refine congrArg Except.ok (funext fun w => funext fun k => funext fun a => funext fun b => ?_)
      change _ = rToK (fun r a b => T.toFreq (fun t => y (t, r) a b) w + constantGammaF const (fTr T f) r a b) k (ι a) (ι b)
      have hC : ∀ r, constantGammaF (fun r => cut ι (const r)) (fTr T fun p => part2 ι (f p)) r
          = part2 ι (constantGammaF const (fTr T f) r) := fun r => by
        unfold constantGammaF
        rw [hf, gammaF_part hi (hc r)]
      simp only [hC, rToK, fftw, Pi.smul_apply, Finset.sum_apply]
      rfl

/-- C127: the vertices of the random phase approximation do not connect the parts and restrict. -/
theorem C127_rpa_vertex (hi : Function.Injective ι) (chid chim Ud Um : T4 o) (hcd : Linked (Set.range ι) chid)
    (hcm : Linked (Set.range ι) chim) (hd : Separate (Set.range ι) Ud) (hm : Separate (Set.range ι) Um) :
    (gammaSinglet (cut ι Ud) (cut ι Um) (phiPoint (cut ι chid) (cut ι Ud)) (phiPoint (cut ι chim) (cut ι Um))
        = cut ι (gammaSinglet Ud Um (phiPoint chid Ud) (phiPoint chim Um))) ∧
      (gammaTriplet (cut ι Ud) (cut ι Um) (phiPoint (cut ι chid) (cut ι Ud)) (phiPoint (cut ι chim) (cut ι Um))
        = cut ι (gammaTriplet Ud Um (phiPoint chid Ud) (phiPoint chim Um))) ∧
      Separate (Set.range ι) (gammaSinglet Ud Um (phiPoint chid Ud) (phiPoint chim Um)) ∧
      Separate (Set.range ι) (gammaTriplet Ud Um (phiPoint chid Ud) (phiPoint chim Um)) := by
  have hphi : ∀ {c U : T4 o}, Linked (Set.range ι) c → Separate (Set.range ι) U →
      phiPoint (cut ι c) (cut ι U) = cut ι (phiPoint c U) ∧ Separate (Set.range ι) (phiPoint c U) := by
    intro c U hc hU
    have hc' : Apart (Set.range (Prod.map ι ι)) (Rpa.pairMat c) := by rw [range_pair]; exact hc.apart
    have hU' : Apart (Set.range (Prod.map ι ι)) (Rpa.pairMat U) := by rw [range_pair]; exact hU.linked.apart
    constructor
    · unfold phiPoint
      rw [pairMat_cut, pairMat_cut, ← restrict_mul (pair_injective hi) hU', ← restrict_mul (pair_injective hi) (hU'.mul hc')]
      rfl
    · unfold phiPoint
      rw [mul_assoc]
      exact separate_mul hU (hc.apart.mul hU.linked.apart) (hc.compl.apart.mul hU.compl.linked.apart)
  obtain ⟨e1, s1⟩ := hphi hcd hd
  obtain ⟨e2, s2⟩ := hphi hcm hm
  generalize phiPoint chid Ud = pd at *
  generalize phiPoint chim Um = pm at *
  rw [e1, e2]
  have hall : ∀ a b c e : o, ¬(Side (Set.range ι) a b ∧ Side (Set.range ι) a c ∧ Side (Set.range ι) a e) →
      Ud a b c e = 0 ∧ Um a b c e = 0 ∧ pd c b a e = 0 ∧ pm c b a e = 0 := by
    intro a b c e h
    have h' : ¬(Side (Set.range ι) c b ∧ Side (Set.range ι) c a ∧ Side (Set.range ι) c e) := by
      rintro ⟨h1, h2, h3⟩
      exact h ⟨h2.symm.trans h1, h2.symm, h2.symm.trans h3⟩
    exact ⟨(hd a b c e).resolve_left h, (hm a b c e).resolve_left h, (s1 c b a e).resolve_left h', (s2 c b a e).resolve_left h'⟩
  refine ⟨rfl, rfl, fun a b c e => ?_, fun a b c e => ?_⟩
  · by_cases h : Side (Set.range ι) a b ∧ Side (Set.range ι) a c ∧ Side (Set.range ι) a e
    · exact .inl h
    · obtain ⟨h1, h2, h3, h4⟩ := hall a b c e h
      exact .inr (by simp [gammaSinglet, h1, h2, h3, h4])
  · by_cases h : Side (Set.range ι) a b ∧ Side (Set.range ι) a c ∧ Side (Set.range ι) a e
    · exact .inl h
    · obtain ⟨h1, h2, h3, h4⟩ := hall a b c e h
      exact .inr (by simp [gammaTriplet, h1, h2, h3, h4])

end Eliashberg

end Verif.Subsystem
