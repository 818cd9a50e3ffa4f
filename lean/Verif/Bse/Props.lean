import Verif.Bse.Lemmas
import Mathlib.LinearAlgebra.Matrix.Symmetric
import Mathlib.Tactic.FinCases
import Mathlib.Tactic.NormNum
import Mathlib.Algebra.BigOperators.Field

/-!
# C22 - C28: channels and Bethe-Salpeter equations
-/

namespace Verif.Bse

open Verif.Parallel

variable {F : Type*} [Field F] {o : Type*} [Fintype o] [DecidableEq o]
variable {ν : Type*} [Fintype ν] [DecidableEq ν]
variable {W K : Type*} [DecidableEq W] [DecidableEq K]

set_option linter.unusedSectionVars false

/-! ## C22 -/

/-- The index formula of the product in each channel, the contractions of
`/repo/doc/theory/vertex.rst:70-86`. -/
def productSpec : Channel → T6 ν o F → T6 ν o F → T6 ν o F
  | .PH, A, B => fun n n' a b c d => ∑ m, ∑ e, ∑ f, A n m a b e f * B m n' f e c d
  | .PHbar, A, B => fun n n' a b c d => ∑ m, ∑ e, ∑ f, A n m a f e d * B m n' e b c f
  | .PP, A, B => fun n n' a b c d => ∑ m, ∑ e, ∑ f, A n m a e c f * B m n' e b f d

/-- C22: the product is the documented contraction. -/
theorem C22_product_formula (ch : Channel) (A B : T6 ν o F) :
    product ch A B = productSpec ch A B := by
  funext n n' a b c d
  cases ch
  · change (chMat .PH A * chMat .PH B) (n, a, b) (n', d, c) = _
    simp only [Matrix.mul_apply, Fintype.sum_prod_type, productSpec]
    refine Finset.sum_congr rfl fun m _ => ?_
    rw [Finset.sum_comm]
    rfl
  · change (chMat .PHbar A * chMat .PHbar B) (n, a, d) (n', c, b) = _
    simp only [Matrix.mul_apply, Fintype.sum_prod_type, productSpec]
    rfl
  · change (chMat .PP A * chMat .PP B) (n, a, c) (n', b, d) = _
    simp only [Matrix.mul_apply, Fintype.sum_prod_type, productSpec]
    rfl

/-- C22: associativity, identity and distributive laws, in every channel and at every bosonic
frequency. -/
theorem C22_ring_laws (ch : Channel) (A B C : W → T6 ν o F) :
    productIw ch (productIw ch A B) C = productIw ch A (productIw ch B C) ∧
    productIw ch A (identityIw ch) = A ∧ productIw ch (identityIw ch) A = A ∧
    productIw ch A (B + C) = productIw ch A B + productIw ch A C ∧
    productIw ch (A + B) C = productIw ch A C + productIw ch B C := by
  refine ⟨?_, ?_, ?_, ?_, ?_⟩
  · funext w
    apply chMat_injective ch
    simp only [productIw, chMat_product, Matrix.mul_assoc]
  · funext w
    apply chMat_injective ch
    simp only [productIw, identityIw, chMat_product, chMat_identity, Matrix.mul_one]
  · funext w
    apply chMat_injective ch
    simp only [productIw, identityIw, chMat_product, chMat_identity, Matrix.one_mul]
  · funext w
    apply chMat_injective ch
    simp only [productIw, chMat_product, Pi.add_apply, chMat_add, Matrix.mul_add]
  · funext w
    apply chMat_injective ch
    simp only [productIw, chMat_product, Pi.add_apply, chMat_add, Matrix.add_mul]

/-- C22: the inverse is two sided, per bosonic frequency; only that frequency has to be
invertible. -/
theorem C22_inverse (ch : Channel) (A : W → T6 ν o F) (w : W) (h : IsUnit (chMat ch (A w)).det) :
    productIw ch A (inverseIw ch A) w = identityIw ch w ∧
    productIw ch (inverseIw ch A) A w = identityIw ch w := by
  constructor
  · apply chMat_injective ch
    simp only [productIw, inverseIw, identityIw, chMat_product, chMat_inverse, chMat_identity]
    exact Matrix.mul_nonsing_inv _ h
  · apply chMat_injective ch
    simp only [productIw, inverseIw, identityIw, chMat_product, chMat_inverse, chMat_identity]
    exact Matrix.nonsing_inv_mul _ h

/-- C22: the inverse of a product and uniqueness of inverses. -/
theorem C22_inverse_laws (ch : Channel) (A B : T6 ν o F) (hA : IsUnit (chMat ch A).det) :
    inverse ch (product ch A B) = product ch (inverse ch B) (inverse ch A) ∧
    inverse ch (inverse ch A) = A ∧
    (product ch A B = identity ch → B = inverse ch A) := by
  refine ⟨?_, ?_, ?_⟩
  · apply chMat_injective ch
    simp only [chMat_product, chMat_inverse, Matrix.mul_inv_rev]
  · apply chMat_injective ch
    simp only [chMat_inverse]
    exact Matrix.nonsing_inv_nonsing_inv _ hA
  · intro h
    apply chMat_injective ch
    have := congrArg (chMat ch) h
    rw [chMat_product, chMat_identity] at this
    rw [chMat_inverse, Matrix.inv_eq_right_inv this]

/-- the identities of the PH channel (δ_{nn'} δ_{ad} δ_{bc}) -/
theorem C22_identity_PH (n n' : ν) (a b c d : o) :
    (identity .PH : T6 ν o F) n n' a b c d = if n = n' ∧ a = d ∧ b = c then 1 else 0 := by
  simp only [identity, chTensor, Matrix.one_apply, Prod.mk.injEq]

/-- the PP product differs from the PH product: the channel index matters -/
example : product .PH (fun _ _ a b _ _ => if a = 0 ∧ b = 1 then (1 : ℚ) else 0 : T6 (Fin 1) (Fin 2) ℚ)
      (fun _ _ _ _ _ _ => 1) 0 0 0 1 0 0
    ≠ product .PP (fun _ _ a b _ _ => if a = 0 ∧ b = 1 then (1 : ℚ) else 0 : T6 (Fin 1) (Fin 2) ℚ)
      (fun _ _ _ _ _ _ => 1) 0 0 0 1 0 0 := by
  rw [C22_product_formula, C22_product_formula]
  simp [productSpec]

/-! ## C23 -/

/-- C23: the contraction with triangle vertices is the explicit sum of the reference loop kept as a
comment in `/repo/c++/triqs_tprf/lattice/chi_imfreq.cpp:735-749`. -/
theorem C23_scalar_product (vL vR : ν → T4 o F) (M : T6 ν o F) (a b c d : o) :
    scalarProductPH vL M vR a b c d = ∑ n1, ∑ n2, ∑ e, ∑ f, ∑ g, ∑ h,
      vL n1 e f b a * M n1 n2 e f g h * vR n2 h g c d := by
  have e0 : scalarProductPH vL M vR a b c d = ∑ x : ν × o × o, (∑ y : ν × o × o, vL y.1 y.2.1 y.2.2 b a
      * M y.1 x.1 y.2.1 y.2.2 x.2.1 x.2.2) * vR x.1 x.2.2 x.2.1 c d := rfl
  rw [e0]
  simp only [Fintype.sum_prod_type, Finset.sum_mul]
  -- move the inner (left) sums to the front
  have e1 : ∀ x : ν, (∑ y, ∑ z, ∑ n, ∑ e, ∑ f, vL n e f b a * M n x e f y z * vR x z y c d)
      = ∑ n, ∑ e, ∑ f, ∑ y, ∑ z, vL n e f b a * M n x e f y z * vR x z y c d := by
    intro x
    calc (∑ y, ∑ z, ∑ n, ∑ e, ∑ f, vL n e f b a * M n x e f y z * vR x z y c d)
        = ∑ y, ∑ n, ∑ z, ∑ e, ∑ f, vL n e f b a * M n x e f y z * vR x z y c d :=
          Finset.sum_congr rfl fun y _ => Finset.sum_comm
      _ = ∑ n, ∑ y, ∑ z, ∑ e, ∑ f, vL n e f b a * M n x e f y z * vR x z y c d := Finset.sum_comm
      _ = ∑ n, ∑ e, ∑ f, ∑ y, ∑ z, vL n e f b a * M n x e f y z * vR x z y c d := by
          refine Finset.sum_congr rfl fun n _ => ?_
          calc (∑ y, ∑ z, ∑ e, ∑ f, vL n e f b a * M n x e f y z * vR x z y c d)
              = ∑ y, ∑ e, ∑ z, ∑ f, vL n e f b a * M n x e f y z * vR x z y c d :=
                Finset.sum_congr rfl fun y _ => Finset.sum_comm
            _ = ∑ e, ∑ y, ∑ z, ∑ f, vL n e f b a * M n x e f y z * vR x z y c d := Finset.sum_comm
            _ = ∑ e, ∑ f, ∑ y, ∑ z, vL n e f b a * M n x e f y z * vR x z y c d := by
                refine Finset.sum_congr rfl fun e _ => ?_
                calc (∑ y, ∑ z, ∑ f, vL n e f b a * M n x e f y z * vR x z y c d)
                    = ∑ y, ∑ f, ∑ z, vL n e f b a * M n x e f y z * vR x z y c d :=
                      Finset.sum_congr rfl fun y _ => Finset.sum_comm
                  _ = _ := Finset.sum_comm
  rw [Finset.sum_congr rfl fun x _ => e1 x, Finset.sum_comm]

/-- C23: the triple product in PH matrix form: `L` as rows `(a,b)`, `R` as columns. -/
theorem C23_scalar_product_matrix (vL vR : ν → T4 o F) (M : T6 ν o F) (a b c d : o) :
    scalarProductPH vL M vR a b c d = ∑ r, ∑ s,
      vL r.1 r.2.1 r.2.2 b a * chMat .PH M r s * vR s.1 s.2.1 s.2.2 c d := by
  rw [C23_scalar_product]
  simp only [Fintype.sum_prod_type, chMat]
  refine Finset.sum_congr rfl fun n _ => ?_
  rw [Finset.sum_comm]
  refine Finset.sum_congr rfl fun e _ => ?_
  rw [Finset.sum_comm]
  refine Finset.sum_congr rfl fun f _ => Finset.sum_congr rfl fun m _ => ?_
  rw [Finset.sum_comm]

/-! ## C24 -/

/-- C24: extracting the vertex and solving the Bethe-Salpeter equation with it returns the
susceptibility. -/
theorem C24_chi_roundtrip (chi0 chi : W → T6 ν o F) (w : W)
    (h0 : IsUnit (chMat .PH (chi0 w)).det) (h : IsUnit (chMat .PH (chi w)).det) :
    bsePoint (chi0 w) (solveLocalBse chi0 chi w) = chi w := by
  apply chMat_injective .PH
  rw [chMat_bsePoint, solveLocalBse, chMat_sub, inverseIw, inverseIw, chMat_inverse, chMat_inverse]
  exact bse_roundtrip _ _ h0 h

/-- C24: solving the Bethe-Salpeter equation and extracting the vertex returns the vertex. -/
theorem C24_vertex_roundtrip (chi0 gamma : W → T6 ν o F) (w : W)
    (h0 : IsUnit (chMat .PH (chi0 w)).det)
    (hD : IsUnit (1 - chMat .PH (chi0 w) * chMat .PH (gamma w)).det) :
    solveLocalBse chi0 (fun w => bsePoint (chi0 w) (gamma w)) w = gamma w := by
  apply chMat_injective .PH
  rw [solveLocalBse, chMat_sub, inverseIw, inverseIw, chMat_inverse, chMat_inverse, chMat_bsePoint]
  exact vertex_roundtrip _ _ h0 hD

/-- non-trivial instance: two frequencies, one orbital, non-diagonal `χ` -/
example : IsUnit (chMat .PH (fun n m _ _ _ _ => if n = m then (2 : ℚ) else 1 :
    T6 (Fin 2) (Fin 1) ℚ)).det := by
  apply Matrix.isUnit_det_of_right_inverse
    (B := Matrix.of fun r c => if r.1 = c.1 then (2 / 3 : ℚ) else -1 / 3)
  ext ⟨n, a, b⟩ ⟨m, c, d⟩
  rw [Matrix.mul_apply]
  fin_cases n, a, b, m, c, d <;>
    simp [chMat, Fintype.sum_prod_type, Fin.sum_univ_two] <;> norm_num

/-! ## C25 -/

/-- C25: the lattice susceptibility solves the Bethe-Salpeter equation
`χ_{abcd}(n,n') = δ_{nn'} χ⁰_{abcd}(n) + Σ χ⁰_{abef}(n) Γ_{fegh}(n,m) χ_{hgcd}(m,n')`. -/
theorem C25_lattice_bse (chi0 : W → ν → K → T4 o F) (gamma : W → T6 ν o F) (k : K) (w : W)
    (hD : IsUnit (1 - chMat .PH (diagEmbed fun n => chi0 w n k) * chMat .PH (gamma w)).det)
    (n n' : ν) (a b c d : o) :
    let chi := chiqFromChi0qAndGamma chi0 gamma k w
    chi n n' a b c d = (if n = n' then chi0 w n k a b c d else 0)
      + ∑ m, ∑ e, ∑ f, ∑ g, ∑ h,
          chi0 w n k a b e f * gamma w n m f e g h * chi m n' h g c d := by
  intro chi
  have h1 : chi = diagEmbed (fun n => chi0 w n k)
      + product .PH (diagEmbed fun n => chi0 w n k) (product .PH (gamma w) chi) := by
    apply chMat_injective .PH
    rw [chMat_add, chMat_product, chMat_product, ← Matrix.mul_assoc]
    have : chMat .PH chi = _ := chMat_bsePoint (diagEmbed fun n => chi0 w n k) (gamma w)
    rw [this]
    exact bse_eq_of_unit _ _ hD
  have h2 := congrFun (congrFun (congrFun (congrFun (congrFun (congrFun h1 n) n') a) b) c) d
  rw [h2, C22_product_formula, C22_product_formula]
  simp only [Pi.add_apply, diagEmbed, productSpec]
  congr 1
  · split_ifs <;> rfl
  · rw [Finset.sum_eq_single n (by
      intro m _ hm
      simp [Ne.symm hm]) (by simp)]
    simp only [if_true, Finset.mul_sum]
    calc (∑ e, ∑ f, ∑ m, ∑ g, ∑ h,
          chi0 w n k a b e f * (gamma w n m f e g h * chi m n' h g c d))
        = ∑ e, ∑ m, ∑ f, ∑ g, ∑ h,
          chi0 w n k a b e f * (gamma w n m f e g h * chi m n' h g c d) :=
          Finset.sum_congr rfl fun e _ => Finset.sum_comm
      _ = ∑ m, ∑ e, ∑ f, ∑ g, ∑ h,
          chi0 w n k a b e f * (gamma w n m f e g h * chi m n' h g c d) := Finset.sum_comm
      _ = _ := by simp only [mul_assoc]

/-- C25: uniqueness of the solution of the Bethe-Salpeter equation (grouped form). -/
theorem C25_unique (chi0 gamma X : T6 ν o F)
    (hD : IsUnit (1 - chMat .PH chi0 * chMat .PH gamma).det)
    (hX : X = chi0 + product .PH chi0 (product .PH gamma X)) : X = bsePoint chi0 gamma := by
  apply chMat_injective .PH
  rw [chMat_bsePoint]
  apply solve_of_eq hD
  have := congrArg (chMat .PH) hX
  rw [chMat_add, chMat_product, chMat_product, ← Matrix.mul_assoc] at this
  rw [Matrix.sub_mul, Matrix.one_mul, sub_eq_iff_eq_add]
  exact this

/-- C25: momentum independent bubble equal to the impurity bubble: the lattice result is the impurity
susceptibility. -/
theorem C25_local_limit (chi0imp : W → ν → T4 o F) (chi : W → T6 ν o F) (w : W) (k : K)
    (h0 : IsUnit (chMat .PH (diagEmbed (chi0imp w))).det) (h : IsUnit (chMat .PH (chi w)).det) :
    chiqFromChi0qAndGamma (fun w n _ => chi0imp w n)
      (solveLocalBse (fun w => diagEmbed (chi0imp w)) chi) k w = chi w :=
  C24_chi_roundtrip (fun w => diagEmbed (chi0imp w)) chi w h0 h

/-- C25: without vertex the bubble is returned. -/
theorem C25_no_vertex (chi0 : W → ν → K → T4 o F) (k : K) (w : W) :
    chiqFromChi0qAndGamma chi0 (fun _ => 0) k w = diagEmbed fun n => chi0 w n k := by
  apply chMat_injective .PH
  rw [chiqFromChi0qAndGamma, chMat_bsePoint]
  have : chMat .PH (0 : T6 ν o F) = 0 := rfl
  rw [this, Matrix.mul_zero, sub_zero, inv_one, Matrix.one_mul]

/-! ## C26 -/

/-- C26: the traced routine equals the trace of the untraced routine, for every number of ranks. -/
theorem C26_trace_routes (ranks : ℕ) (hr : 0 < ranks) (beta : F) (mesh : List (K × W))
    (hm : mesh.Nodup) (chi0 : W → ν → K → T4 o F) (gamma : W → T6 ν o F) (k : K) (w : W)
    (hp : (k, w) ∈ mesh) :
    chiqSumNuFromChi0qAndGamma ranks beta mesh chi0 gamma (k, w)
      = chiqSumNu beta (chiqFromChi0qAndGamma chi0 gamma) k w := by
  rw [chiqSumNuFromChi0qAndGamma, C02_distributedAssign ranks hr _ hm, if_pos hp]
  rfl

/-- C26: attaching triangle vertices afterwards or in the combined routine is the same. -/
theorem C26_triangle_routes (r1 r2 : ℕ) (h1 : 0 < r1) (h2 : 0 < r2) (mesh : List (K × W))
    (hm : mesh.Nodup) (mesh' : List (W × K)) (hm' : mesh'.Nodup) (chi0 : W → ν → K → T4 o F)
    (gamma : W → T6 ν o F) (L : W → ν → T4 o F) (k : K) (w : W) (hp : (k, w) ∈ mesh)
    (hp' : (w, k) ∈ mesh') :
    chiqSumNuL r1 mesh chi0 gamma L (k, w)
      = attachTriVert r2 mesh' L (chiqFromChi0qAndGamma chi0 gamma) (w, k) := by
  rw [chiqSumNuL, C02_distributedAssign r1 h1 _ hm, if_pos hp, attachTriVert,
    C02_distributedAssign r2 h2 _ hm', if_pos hp']
  rfl

/-- C26: with the trivial triangle vertex `L_{abcd} = δ_{ad} δ_{bc} / β` the triangle routine is the plain
trace. -/
theorem C26_trivial_triangle (r1 r2 : ℕ) (h1 : 0 < r1) (h2 : 0 < r2) (beta : F)
    (mesh : List (K × W)) (hm : mesh.Nodup) (chi0 : W → ν → K → T4 o F) (gamma : W → T6 ν o F)
    (k : K) (w : W) (hp : (k, w) ∈ mesh) :
    chiqSumNuL r1 mesh chi0 gamma
        (fun _ _ a b c d => if a = d ∧ b = c then 1 / beta else 0) (k, w)
      = chiqSumNuFromChi0qAndGamma r2 beta mesh chi0 gamma (k, w) := by
  rw [chiqSumNuL, C02_distributedAssign r1 h1 _ hm, if_pos hp, chiqSumNuFromChi0qAndGamma,
    C02_distributedAssign r2 h2 _ hm, if_pos hp]
  funext a b c d
  rw [C23_scalar_product_matrix]
  simp only [traceNu, Fintype.sum_prod_type]
  have key : ∀ X : T6 ν o F, (∑ n, ∑ e, ∑ f, ∑ m, ∑ h, ∑ g,
      (if e = a ∧ f = b then 1 / beta else 0) * chMat .PH X (n, e, f) (m, h, g)
        * (if h = d ∧ g = c then 1 / beta else 0)) = (∑ n, ∑ m, X n m a b c d) / (beta * beta) := by
    intro X
    rw [Finset.sum_div]
    refine Finset.sum_congr rfl fun n _ => ?_
    rw [Finset.sum_eq_single a (by intro e _ he; simp [he]) (by simp),
      Finset.sum_eq_single b (by intro e _ he; simp [he]) (by simp), Finset.sum_div]
    refine Finset.sum_congr rfl fun m _ => ?_
    rw [Finset.sum_eq_single d (by intro e _ he; simp [he]) (by simp),
      Finset.sum_eq_single c (by intro e _ he; simp [he]) (by simp)]
    simp only [true_and, if_true, chMat]
    ring
  exact key _

/-- C26: the momentum summed trace is the average over momenta of the momentum resolved trace. -/
theorem C26_momentum_average [Fintype K] (beta : F) (chi : K → W → T6 ν o F) (w : W) (a b c d : o) :
    chiqSumNuQ beta chi w a b c d
      = (∑ k, chiqSumNu beta chi k w a b c d) / (Fintype.card K : F) := by
  simp only [chiqSumNuQ, chiqSumNu, ← Finset.sum_div]
  rw [div_right_comm]

/-! ## C27 -/

/-- C27: the tail corrected routine returns the uncorrected susceptibility plus the difference between
the tail corrected bubble trace and the bubble trace on the vertex mesh; too small tail meshes are
refused. -/
theorem C27_tail_correction {νt : Type*} [Fintype νt] (ranks : ℕ) (hr : 0 < ranks) (beta : F)
    (mesh : List (K × W)) (hm : mesh.Nodup) (emb : ν → νt) (bubble : W → K → νt → T4 o F)
    (density : (νt → F) → F) (gamma : W → T6 ν o F) (hc : Fintype.card ν ≤ Fintype.card νt) :
    ∃ res, chiqSumNuTail ranks beta mesh emb bubble density gamma = .ok res ∧
      ∀ k w, (k, w) ∈ mesh → ∀ a b c d, res (k, w) a b c d
        = chiqSumNuFromChi0qAndGamma ranks beta mesh (fun w n k => bubble w k (emb n)) gamma (k, w)
            a b c d
          + (density (fun n => bubble w k n a b c d) / beta
            - (∑ n, bubble w k (emb n) a b c d) / (beta * beta)) := by
  refine ⟨_, if_neg (not_lt.2 hc), ?_⟩
  intro k w hp a b c d
  rw [C02_distributedAssign ranks hr _ hm, if_pos hp, chiqSumNuFromChi0qAndGamma,
    C02_distributedAssign ranks hr _ hm, if_pos hp]
  rfl

/-- C27: refusal. -/
theorem C27_refuses_small_tail {νt : Type*} [Fintype νt] (ranks : ℕ) (beta : F)
    (mesh : List (K × W)) (emb : ν → νt) (bubble : W → K → νt → T4 o F)
    (density : (νt → F) → F) (gamma : W → T6 ν o F) (hc : Fintype.card νt < Fintype.card ν) :
    ∃ e, chiqSumNuTail ranks beta mesh emb bubble density gamma = .error e := ⟨_, if_pos hc⟩

/-- C27: without vertex only the (tail corrected) bubble remains. -/
theorem C27_no_vertex {νt : Type*} [Fintype νt] (ranks : ℕ) (hr : 0 < ranks) (beta : F)
    (mesh : List (K × W)) (hm : mesh.Nodup) (emb : ν → νt) (bubble : W → K → νt → T4 o F)
    (density : (νt → F) → F) (hc : Fintype.card ν ≤ Fintype.card νt) :
    ∃ res, chiqSumNuTail ranks beta mesh emb bubble density (fun _ => (0 : T6 ν o F)) = .ok res ∧
      ∀ k w, (k, w) ∈ mesh → ∀ a b c d, res (k, w) a b c d
        = density (fun n => bubble w k n a b c d) / beta := by
  obtain ⟨res, h1, h2⟩ := C27_tail_correction ranks hr beta mesh hm emb bubble density
    (fun _ => (0 : T6 ν o F)) hc
  refine ⟨res, h1, ?_⟩
  intro k w hp a b c d
  rw [h2 k w hp a b c d, C26_trace_routes ranks hr beta mesh hm _ _ k w hp, chiqSumNu,
    C25_no_vertex]
  have : (∑ n1, ∑ n2, diagEmbed (fun n => bubble w k (emb n)) n1 n2 a b c d)
      = ∑ n, bubble w k (emb n) a b c d := by
    refine Finset.sum_congr rfl fun n1 _ => ?_
    rw [Finset.sum_eq_single n1]
    · simp [diagEmbed]
    · intro n2 _ hn; simp [diagEmbed, Ne.symm hn]
    · simp
  rw [this]
  ring

/-- C27: a tail mesh equal to the vertex mesh and a density that is the plain Matsubara sum give the
uncorrected result. -/
theorem C27_same_window (ranks : ℕ) (hr : 0 < ranks) (beta : F) (mesh : List (K × W))
    (hm : mesh.Nodup) (bubble : W → K → ν → T4 o F) (gamma : W → T6 ν o F) :
    ∃ res, chiqSumNuTail ranks beta mesh id bubble (fun f => (∑ n, f n) / beta) gamma = .ok res ∧
      ∀ k w, (k, w) ∈ mesh → res (k, w)
        = chiqSumNuFromChi0qAndGamma ranks beta mesh (fun w n k => bubble w k n) gamma (k, w) := by
  obtain ⟨res, h1, h2⟩ := C27_tail_correction ranks hr beta mesh hm id bubble
    (fun f => (∑ n, f n) / beta) gamma le_rfl
  refine ⟨res, h1, ?_⟩
  intro k w hp
  funext a b c d
  rw [h2 k w hp a b c d, div_div]
  simp

/-- C27 for the python driver: the returned susceptibility is the windowed one plus (tail corrected
minus windowed) bubble, and the second value is the tail corrected bubble. -/
theorem C27_solve_lattice_bse (ranks : ℕ) (hr : 0 < ranks) (beta : F) (mesh : List (K × W))
    (wkmesh : List (W × K)) (hm : mesh.Nodup) (hm' : wkmesh.Nodup) (chi0tail : W → K → T4 o F)
    (chi0 : W → ν → K → T4 o F) (gamma : W → T6 ν o F) (k : K) (w : W) (hp : (k, w) ∈ mesh)
    (hp' : (w, k) ∈ wkmesh) (a b c d : o) :
    (solveLatticeBse ranks beta mesh wkmesh chi0tail chi0 gamma).1 (k, w) a b c d
      = (∑ n1, ∑ n2, chiqFromChi0qAndGamma chi0 gamma k w n1 n2 a b c d) / (beta * beta)
        + (chi0tail w k a b c d - (∑ n, chi0 w n k a b c d) / (beta * beta)) ∧
    (solveLatticeBse ranks beta mesh wkmesh chi0tail chi0 gamma).2 (k, w) = chi0tail w k := by
  refine ⟨?_, rfl⟩
  simp only [solveLatticeBse, Pi.add_apply, Pi.sub_apply, chi0qSumNu]
  rw [C26_trace_routes ranks hr beta mesh hm _ _ k w hp, C02_distributedAssign ranks hr _ hm',
    if_pos hp']
  rfl

/-! ## C28 -/

/-- C28 (grouped form): impurity susceptibility plus dual ladder equals the lattice Bethe-Salpeter
susceptibility with the irreducible vertex of the same impurity. -/
theorem C28_dual_bse_matrix (chi0 chi chi0nl : T6 ν o F)
    (h0 : IsUnit (chMat .PH chi0).det) (h : IsUnit (chMat .PH chi).det)
    (hD : IsUnit (1 - chMat .PH (chi0 + chi0nl)
      * chMat .PH (solveLocalBse (fun _ : Unit => chi0) (fun _ => chi) ())).det) :
    bsePoint (chi0 + chi0nl) (solveLocalBse (fun _ : Unit => chi0) (fun _ => chi) ())
      = chi + product .PH (product .PH (product .PH chi (inverse .PH chi0))
          (bsePoint chi0nl (reducibleVertexF (fun _ : Unit => chi0) (fun _ => chi) ())))
          (product .PH (inverse .PH chi0) chi) := by
  apply chMat_injective .PH
  simp only [solveLocalBse, inverseIw, chMat_sub, chMat_inverse, chMat_add] at hD
  simp only [chMat_bsePoint, chMat_add, chMat_product, chMat_inverse, solveLocalBse,
    reducibleVertexF, inverseIw, productIw, chMat_sub]
  exact dual_bse _ _ _ h0 h hD

/-- C28: the complete dual Bethe-Salpeter routine, with the triangle vertex built from the impurity
susceptibility, returns the same as the ordinary lattice Bethe-Salpeter routine with the irreducible
vertex of the impurity, when the impurity matrices are symmetric in the PH grouping (the code uses
one triangle vertex for both sides). -/
theorem C28_dual_routine (r1 r2 : ℕ) (h1 : 0 < r1) (h2 : 0 < r2) (beta : F)
    (mesh : List (K × W)) (hm : mesh.Nodup)
    (chi0imp : W → ν → T4 o F) (chi : W → T6 ν o F) (chi0q chi0nl : W → ν → K → T4 o F)
    (L : W → ν → T4 o F) (chiImp : W → T4 o F) (k : K) (w : W) (hp : (k, w) ∈ mesh)
    (hnl : ∀ n, chi0q w n k = chi0imp w n + chi0nl w n k)
    (hL : ∀ n a b c d, L w n a b c d
      = (∑ m, product .PH (inverse .PH (diagEmbed (chi0imp w))) (chi w) n m a b c d) / beta)
    (hImp : chiImp w = traceNu beta (chi w))
    (hs0 : (chMat .PH (diagEmbed (chi0imp w))).IsSymm) (hs : (chMat .PH (chi w)).IsSymm)
    (h0 : IsUnit (chMat .PH (diagEmbed (chi0imp w))).det) (h : IsUnit (chMat .PH (chi w)).det)
    (hD : IsUnit (1 - chMat .PH (diagEmbed fun n => chi0q w n k)
      * chMat .PH (solveLocalBse (fun w => diagEmbed (chi0imp w)) chi w)).det) :
    solveLatticeDbse r1 mesh chi0nl (reducibleVertexF (fun w => diagEmbed (chi0imp w)) chi) L chiImp
        (k, w)
      = chiqSumNuFromChi0qAndGamma r2 beta mesh chi0q
          (solveLocalBse (fun w => diagEmbed (chi0imp w)) chi) (k, w) := by
  set X := diagEmbed (chi0imp w) with hX
  have hsum : (diagEmbed fun n => chi0q w n k) = X + diagEmbed fun n => chi0nl w n k := by
    funext n m
    simp only [diagEmbed, Pi.add_apply, hnl, hX]
    split_ifs <;> simp
  rw [solveLatticeDbse, chiqSumNuL, C02_distributedAssign r1 h1 _ hm, if_pos hp,
    chiqSumNuFromChi0qAndGamma, C02_distributedAssign r2 h2 _ hm, if_pos hp]
  simp only
  rw [hsum] at hD ⊢
  have key := C28_dual_bse_matrix X (chi w) (diagEmbed fun n => chi0nl w n k) h0 h hD
  have key' : bsePoint (X + diagEmbed fun n => chi0nl w n k)
      (solveLocalBse (fun w => diagEmbed (chi0imp w)) chi w) = _ := key
  rw [key', hImp]
  set B := bsePoint (diagEmbed fun n => chi0nl w n k)
    (reducibleVertexF (fun w => diagEmbed (chi0imp w)) chi w) with hB
  change scalarProductPH (L w) B (L w) + traceNu beta (chi w)
    = traceNu beta (chi w + product .PH (product .PH (product .PH (chi w) (inverse .PH X)) B)
        (product .PH (inverse .PH X) (chi w)))
  funext a b c d
  have hadd : ∀ s t : T6 ν o F, traceNu beta (s + t) a b c d
      = traceNu beta s a b c d + traceNu beta t a b c d := by
    intro s t
    simp only [traceNu, Pi.add_apply, Finset.sum_add_distrib, add_div]
  rw [Pi.add_apply, Pi.add_apply, Pi.add_apply, Pi.add_apply, hadd, add_comm]
  congr 1
  rw [C23_scalar_product_matrix]
  -- the left triangle vertex is the transposed right one
  set P := chMat .PH (product .PH (inverse .PH X) (chi w)) with hP
  have hQ : chMat .PH (product .PH (chi w) (inverse .PH X)) = P.transpose := by
    rw [hP, chMat_product, chMat_product, chMat_inverse, Matrix.transpose_mul,
      Matrix.transpose_nonsing_inv, hs.eq, hs0.eq]
  have hLP : ∀ (r : ν × o × o) (c d : o), L w r.1 r.2.1 r.2.2 c d = (∑ m, P r (m, d, c)) / beta :=
    fun r c d => hL r.1 r.2.1 r.2.2 c d
  simp only [traceNu]
  have hentry : ∀ n1 n2, product .PH (product .PH (product .PH (chi w) (inverse .PH X)) B)
      (product .PH (inverse .PH X) (chi w)) n1 n2 a b c d
      = ∑ r, ∑ s, P r (n1, a, b) * chMat .PH B r s * P s (n2, d, c) := by
    intro n1 n2
    change (chMat .PH (product .PH (product .PH (chi w) (inverse .PH X)) B) * P) (n1, a, b) (n2, d, c)
      = _
    rw [chMat_product, hQ, Matrix.mul_apply]
    simp only [Matrix.mul_apply, Matrix.transpose_apply, Finset.sum_mul]
    rw [Finset.sum_comm]
  simp only [hentry, hLP]
  have : ∀ r s : ν × o × o, (∑ m, P r (m, a, b)) / beta * chMat .PH B r s
      * ((∑ m, P s (m, d, c)) / beta)
      = (∑ n1, ∑ n2, P r (n1, a, b) * chMat .PH B r s * P s (n2, d, c)) / (beta * beta) := by
    intro r s
    simp only [← Finset.mul_sum, ← Finset.sum_mul]
    rw [div_eq_mul_inv, div_eq_mul_inv, div_eq_mul_inv, mul_inv]
    ring
  simp only [this, ← Finset.sum_div]
  congr 1
  calc (∑ r, ∑ s, ∑ n1, ∑ n2, P r (n1, a, b) * chMat .PH B r s * P s (n2, d, c))
      = ∑ r, ∑ n1, ∑ s, ∑ n2, P r (n1, a, b) * chMat .PH B r s * P s (n2, d, c) :=
        Finset.sum_congr rfl fun r _ => Finset.sum_comm
    _ = ∑ n1, ∑ r, ∑ s, ∑ n2, P r (n1, a, b) * chMat .PH B r s * P s (n2, d, c) := Finset.sum_comm
    _ = ∑ n1, ∑ r, ∑ n2, ∑ s, P r (n1, a, b) * chMat .PH B r s * P s (n2, d, c) :=
        Finset.sum_congr rfl fun n1 _ => Finset.sum_congr rfl fun r _ => Finset.sum_comm
    _ = ∑ n1, ∑ n2, ∑ r, ∑ s, P r (n1, a, b) * chMat .PH B r s * P s (n2, d, c) :=
        Finset.sum_congr rfl fun n1 _ => Finset.sum_comm

/-- one orbital, one frequency instance of the determinant hypotheses of C25 and C28: `χ⁰ = 1`, `χ = 2`
(so `Γ = 1/2`, `F = 1`), non-local bubble `1/2`; all three determinants are units and the result,
`χ + L² N / (1 - N F) = 6`, equals `χ⁰_q / (1 - χ⁰_q Γ) = 6`. -/
example : bsePoint ((fun _ _ _ _ _ _ => 1) + (fun _ _ _ _ _ _ => 1 / 2) : T6 (Fin 1) (Fin 1) ℚ)
    (solveLocalBse (fun _ : Unit => (fun _ _ _ _ _ _ => 1)) (fun _ => fun _ _ _ _ _ _ => 2) ())
    0 0 0 0 0 0 = 6 := by
  have inv1 : ∀ x : ℚ, x ≠ 0 → (Matrix.of fun _ _ => x :
      Matrix (Fin 1 × Fin 1 × Fin 1) (Fin 1 × Fin 1 × Fin 1) ℚ)⁻¹ = Matrix.of fun _ _ => x⁻¹ := by
    intro x hx
    apply Matrix.inv_eq_right_inv
    ext r c
    rw [Subsingleton.elim r c]
    simp [Matrix.mul_apply, hx]
  have h1 : chMat .PH (fun _ _ _ _ _ _ => 1 : T6 (Fin 1) (Fin 1) ℚ) = Matrix.of fun _ _ => 1 := rfl
  have h2 : chMat .PH (fun _ _ _ _ _ _ => 2 : T6 (Fin 1) (Fin 1) ℚ) = Matrix.of fun _ _ => 2 := rfl
  have h3 : chMat .PH (fun _ _ _ _ _ _ => 1 / 2 : T6 (Fin 1) (Fin 1) ℚ)
      = Matrix.of fun _ _ => 1 / 2 := rfl
  have h4 : (1 - (Matrix.of (fun _ _ => 1) + Matrix.of fun _ _ => 1 / 2)
      * (Matrix.of (fun _ _ => (1 : ℚ)⁻¹) - Matrix.of fun _ _ => (2 : ℚ)⁻¹) :
      Matrix (Fin 1 × Fin 1 × Fin 1) (Fin 1 × Fin 1 × Fin 1) ℚ) = Matrix.of fun _ _ => 1 / 4 := by
    ext r c
    rw [Subsingleton.elim r c]
    simp [Matrix.mul_apply]
    norm_num
  change chMat .PH (bsePoint _ _) (0, 0, 0) (0, 0, 0) = 6
  rw [chMat_bsePoint, chMat_add, solveLocalBse, chMat_sub, inverseIw, inverseIw, chMat_inverse,
    chMat_inverse, h1, h2, h3, inv1 1 one_ne_zero, inv1 2 two_ne_zero, h4,
    inv1 (1 / 4) (by norm_num)]
  simp [Matrix.mul_apply]
  norm_num

end Verif.Bse
