import Verif.Dlr.Props
import Verif.Gw.Props
import Verif.Eliashberg.Fft

/-!
# C111: the Eliashberg product on DLR meshes
-/

set_option linter.unusedSectionVars false

noncomputable section

namespace Verif.Dlr

open Complex Matrix MeasureTheory Verif.Parallel Verif.Fourier Verif.Lindhard Verif.Eliashberg Verif.Bubble
open Verif.Gw (Complete kToR_apply2 kToR_apply4 rToK_apply2 rToK_sum rToK_mul)

variable {ι : Type} [Fintype ι] [DecidableEq ι] (M : Mesh ι)

/-! ## Convolutions of represented functions -/

theorem convolve_sum {A B : Type} (sa : Finset A) (sb : Finset B) (beta : ℝ) (a : A → ℂ) (b : B → ℂ) (f : A → ℝ → ℂ)
    (g : B → ℝ → ℂ) (hf : ∀ i, Continuous (f i)) (hg : ∀ i, Continuous (g i)) (t : ℝ) :
    convolve beta (fun s => ∑ i ∈ sa, a i * f i s) (fun s => ∑ j ∈ sb, b j * g j s) t
      = ∑ i ∈ sa, ∑ j ∈ sb, a i * b j * convolve beta (f i) (g j) t := by
  unfold convolve
  have e : ∀ (u : ℝ → ℝ) (_ : Continuous u) (x y : ℝ),
      ∫ s in x..y, (∑ i ∈ sa, a i * f i (u s)) * (∑ j ∈ sb, b j * g j s)
        = ∑ i ∈ sa, ∑ j ∈ sb, a i * b j * ∫ s in x..y, f i (u s) * g j s := by
    intro u hu x y
    have e1 : ∀ s, (∑ i ∈ sa, a i * f i (u s)) * (∑ j ∈ sb, b j * g j s)
        = ∑ i ∈ sa, ∑ j ∈ sb, a i * b j * (f i (u s) * g j s) := by
      intro s
      rw [Finset.sum_mul_sum]
      exact Finset.sum_congr rfl fun i _ => Finset.sum_congr rfl fun j _ => by ring
    simp only [e1]
    have hc : ∀ i j, Continuous fun s => a i * b j * (f i (u s) * g j s) := by
      intro i j
      exact continuous_const.mul (((hf i).comp hu).mul (hg j))
    rw [intervalIntegral.integral_finsetSum]
    · refine Finset.sum_congr rfl fun i _ => ?_
      rw [intervalIntegral.integral_finsetSum]
      · exact Finset.sum_congr rfl fun j _ => intervalIntegral.integral_const_mul _ _
      · intro j _
        exact (hc i j).intervalIntegrable x y
    · intro i _
      exact (continuous_finsetSum _ fun j _ => hc i j).intervalIntegrable x y
  rw [e (fun s => t - s) (by fun_prop), e (fun s => t - s + beta) (by fun_prop), ← Finset.sum_sub_distrib]
  refine Finset.sum_congr rfl fun i _ => ?_
  rw [← Finset.sum_sub_distrib]
  refine Finset.sum_congr rfl fun j _ => ?_
  ring

/-- the values at the frequency nodes that the code obtains from values at the time nodes -/
theorem toFreq_linear (s : Stat) (j : ι) (y : ι → ℂ) :
    M.toFreq s y j = ∑ i, (M.kFreq s * M.kTau⁻¹) j i * y i := by
  unfold Mesh.toFreq
  rw [← kFreq_mulVec, Mesh.fitTau, Matrix.mulVec_mulVec]
  rfl

theorem toFreq_kernel (s : Stat) (hM : M.Proper) (j l : ι) :
    M.toFreq s (fun i => freeTau M.beta (M.tau i) (M.omega l)) j = kernelFreq s M.beta (M.omega l) (M.nu s j) := by
  have h1 : (fun i => freeTau M.beta (M.tau i) (M.omega l)) = fun i => M.evalTau (Pi.single l 1) (M.tau i) := by
    funext i
    simp [Mesh.evalTau, Pi.single_apply]
  rw [h1]
  unfold Mesh.toFreq
  rw [fitTau_eval M (kTau_isUnit hM)]
  simp [Mesh.evalFreq, Pi.single_apply]

/-- the double pole as the code represents it: the derivative of the kernel at the time nodes, interpolated -/
def doublePole (l j : ι) : ℂ := M.toFreq .fermion (fun i => diagTau M.beta (M.tau i) (M.omega l)) j

/-- **C111.**  One term of the pair function on a DLR mesh, for arbitrary values of both factors: the product of the values
at the frequency node, except that double poles, where both factors have the same pole, are replaced by their
interpolation. -/
theorem C111_term (hM : M.Proper) (gg delta : ι → ℂ) (j : ι) :
    M.convTerm gg delta j = gg j * delta j
      - ∑ l, M.fitFreq .fermion gg l * M.fitFreq .fermion delta l
          * ((1 / (matsubara .fermion M.beta (M.nu .fermion j) - M.omega l)) ^ 2 - doublePole M l j) := by
  set a := M.fitFreq .fermion gg with ha
  set b := M.fitFreq .fermion delta with hb
  set k : ι → ℂ := fun l => 1 / (matsubara .fermion M.beta (M.nu .fermion j) - M.omega l) with hk
  have hgg : gg j = ∑ l, a l * k l := by
    rw [← evalFreq_fit M .fermion (kFreq_isUnit hM _) gg j]
    rfl
  have hdd : delta j = ∑ l, b l * k l := by
    rw [← evalFreq_fit M .fermion (kFreq_isUnit hM _) delta j]
    rfl
  have hconv : ∀ l m, M.toFreq .fermion (fun i => convolve M.beta (fun s => freeTau M.beta s (M.omega l))
      (fun s => freeTau M.beta s (M.omega m)) (M.tau i)) j = if l = m then doublePole M l j else k l * k m := by
    intro l m
    by_cases hlm : l = m
    · subst hlm
      rw [if_pos rfl]
      simp only [conv_diag]
      rfl
    · rw [if_neg hlm]
      have hne : M.omega l ≠ M.omega m := fun h => hlm (hM.omega h)
      simp only [conv_kernels _ _ _ _ hne]
      have h1 : M.toFreq .fermion (fun i => (freeTau M.beta (M.tau i) (M.omega l)
          - freeTau M.beta (M.tau i) (M.omega m)) / (M.omega l - M.omega m)) j
          = (M.toFreq .fermion (fun i => freeTau M.beta (M.tau i) (M.omega l)) j
            - M.toFreq .fermion (fun i => freeTau M.beta (M.tau i) (M.omega m)) j) / (M.omega l - M.omega m) := by
        simp only [toFreq_linear]
        rw [← Finset.sum_sub_distrib, Finset.sum_div]
        exact Finset.sum_congr rfl fun i _ => by ring
      rw [h1, toFreq_kernel M _ hM, toFreq_kernel M _ hM]
      simp only [kernelFreq, hk]
      have hl := fermion_ne M.beta hM.beta_pos (M.nu .fermion j) (M.omega l)
      have hm := fermion_ne M.beta hM.beta_pos (M.nu .fermion j) (M.omega m)
      have hc : (M.omega l : ℂ) - M.omega m ≠ 0 := by
        rw [← ofReal_sub, ofReal_ne_zero]
        exact sub_ne_zero.2 hne
      rw [div_sub_div _ _ hl hm, div_div, one_div_mul_one_div, div_eq_div_iff (mul_ne_zero (mul_ne_zero hl hm) hc)
        (mul_ne_zero hl hm)]
      ring
  have hval : M.convTerm gg delta j = ∑ l, ∑ m, a l * b m * (if l = m then doublePole M l j else k l * k m) := by
    unfold Mesh.convTerm
    rw [← ha, ← hb, toFreq_linear]
    have h2 : ∀ i, convolve M.beta (M.evalTau a) (M.evalTau b) (M.tau i)
        = ∑ l, ∑ m, a l * b m * convolve M.beta (fun s => freeTau M.beta s (M.omega l))
          (fun s => freeTau M.beta s (M.omega m)) (M.tau i) := by
      intro i
      exact convolve_sum Finset.univ Finset.univ M.beta a b (fun l s => freeTau M.beta s (M.omega l))
        (fun m s => freeTau M.beta s (M.omega m)) (fun l => freeTau_continuous _ _) (fun m => freeTau_continuous _ _)
        (M.tau i)
    simp only [h2, Finset.mul_sum]
    rw [Finset.sum_comm]
    refine Finset.sum_congr rfl fun l _ => ?_
    rw [Finset.sum_comm]
    refine Finset.sum_congr rfl fun m _ => ?_
    rw [← hconv l m, toFreq_linear, Finset.mul_sum]
    exact Finset.sum_congr rfl fun i _ => by ring
  rw [hval, hgg, hdd, Finset.sum_mul_sum, ← Finset.sum_sub_distrib]
  refine Finset.sum_congr rfl fun l _ => ?_
  have h3 : ∀ m, a l * b m * (if l = m then doublePole M l j else k l * k m)
      = a l * k l * (b m * k m) - if l = m then a l * b l * (k l ^ 2 - doublePole M l j) else 0 := by
    intro m
    by_cases hlm : l = m
    · subst hlm
      rw [if_pos rfl, if_pos rfl]
      ring
    · rw [if_neg hlm, if_neg hlm]
      ring
  simp only [h3, Finset.sum_sub_distrib, Finset.sum_ite_eq, Finset.mem_univ, if_true]
  rfl

/-- a Green's function with the pole 0 and a gap with the pole 1 on the mesh `twoPoles`: nothing is lost -/
example (j : Fin 2) : twoPoles.convTerm (fun i => 1 / matsubara .fermion 1 (twoPoles.nu .fermion i))
      (fun i => 1 / (matsubara .fermion 1 (twoPoles.nu .fermion i) - 1)) j
    = 1 / matsubara .fermion 1 (twoPoles.nu .fermion j) * (1 / (matsubara .fermion 1 (twoPoles.nu .fermion j) - 1)) := by
  have h0 : (fun i => 1 / matsubara .fermion 1 (twoPoles.nu .fermion i))
      = fun i => twoPoles.evalFreq .fermion (Pi.single 0 1) (twoPoles.nu .fermion i) := by
    funext i
    simp [Mesh.evalFreq, kernelFreq, Fin.sum_univ_two, twoPoles]
  have h1 : (fun i => 1 / (matsubara .fermion 1 (twoPoles.nu .fermion i) - 1))
      = fun i => twoPoles.evalFreq .fermion (Pi.single 1 1) (twoPoles.nu .fermion i) := by
    funext i
    simp [Mesh.evalFreq, kernelFreq, Fin.sum_univ_two, twoPoles]
  rw [C111_term _ twoPoles_proper, sub_eq_self, h0, h1]
  simp only [fitFreq_eval _ .fermion (kFreq_isUnit twoPoles_proper _)]
  simp [Fin.sum_univ_two]

section Lattice

variable {d : ℕ} {n : Fin d → ℕ} [∀ i, NeZero (n i)] {o : Type} [Fintype o] [DecidableEq o]

/-- **C111.**  `eliashberg_g_delta_g_product` on a DLR mesh, on any number of ranks: the product that the routine for
Matsubara meshes forms, except for the interpolation of double poles. -/
theorem C111_pair (hM : M.Proper) {ranks : ℕ} (hr : 0 < ranks) {lat : List (Lat n)} (hc : Complete lat)
    (g delta : ι → Lat n → o → o → ℂ) (j : ι) (k : Lat n) (x y : o) :
    M.gDeltaG ranks lat g delta j k x y = Eliashberg.gdgPoint (g j k) (g j (-k)) (delta j k) x y
      - ∑ e, ∑ f, ∑ l, M.fitFreq .fermion (fun i => g i k y f * (starRingEnd ℂ) (g i (-k) e x)) l
          * M.fitFreq .fermion (fun i => delta i k e f) l
          * ((1 / (matsubara .fermion M.beta (M.nu .fermion j) - M.omega l)) ^ 2 - doublePole M l j) := by
  unfold Mesh.gDeltaG
  rw [C02_distributedAssign ranks hr lat hc.1, if_pos (hc.2 k)]
  unfold Mesh.gdgPoint Eliashberg.gdgPoint
  rw [← Finset.sum_sub_distrib]
  refine Finset.sum_congr rfl fun e _ => ?_
  rw [← Finset.sum_sub_distrib]
  exact Finset.sum_congr rfl fun f _ => C111_term M hM _ _ j

/-- **C111 (part).**  If no pole occurs both in the gap and in the product of Green's functions, the routine for DLR meshes
gives at the frequency nodes what the routine for Matsubara meshes gives there.  (Without the condition the claim fails:
`C111_double_violated`.) -/
theorem C111_exact_partial (hM : M.Proper) {ranks : ℕ} (hr : 0 < ranks) {lat : List (Lat n)} (hc : Complete lat)
    (g delta : ι → Lat n → o → o → ℂ) (k : Lat n)
    (hd : ∀ e f x y l, M.fitFreq .fermion (fun i => g i k y f * (starRingEnd ℂ) (g i (-k) e x)) l = 0 ∨
      M.fitFreq .fermion (fun i => delta i k e f) l = 0) (j : ι) :
    M.gDeltaG ranks lat g delta j k = Eliashberg.gdgPoint (g j k) (g j (-k)) (delta j k) := by
  funext x y
  rw [C111_pair M hM hr hc, sub_eq_self]
  refine Finset.sum_eq_zero fun e _ => Finset.sum_eq_zero fun f _ => Finset.sum_eq_zero fun l _ => ?_
  rcases hd e f x y l with h | h
  · rw [h, zero_mul, zero_mul]
  · rw [h, mul_zero, zero_mul]

/-- **C111.**  The pair function is linear in the gap. -/
theorem C111_linear (hM : M.Proper) {ranks : ℕ} (hr : 0 < ranks) {lat : List (Lat n)} (hc : Complete lat)
    (g delta delta' : ι → Lat n → o → o → ℂ) (z : ℂ) (j : ι) (k : Lat n) (x y : o) :
    M.gDeltaG ranks lat g (fun i q a b => delta i q a b + z * delta' i q a b) j k x y
      = M.gDeltaG ranks lat g delta j k x y + z * M.gDeltaG ranks lat g delta' j k x y := by
  have hfit : ∀ (u v : ι → ℂ) (l : ι), M.fitFreq .fermion (fun i => u i + z * v i) l
      = M.fitFreq .fermion u l + z * M.fitFreq .fermion v l := by
    intro u v l
    have e : (fun i => u i + z * v i) = u + z • v := rfl
    rw [e, Mesh.fitFreq, Mesh.fitFreq, Mesh.fitFreq, Matrix.mulVec_add, Matrix.mulVec_smul]
    rfl
  rw [C111_pair M hM hr hc, C111_pair M hM hr hc, C111_pair M hM hr hc]
  unfold Eliashberg.gdgPoint
  simp only [hfit]
  simp only [mul_sub, Finset.mul_sum]
  rw [sub_add_sub_comm]
  simp only [← Finset.sum_add_distrib]
  congr 1
  · exact Finset.sum_congr rfl fun e _ => Finset.sum_congr rfl fun f _ => by ring
  · exact Finset.sum_congr rfl fun e _ => Finset.sum_congr rfl fun f _ => Finset.sum_congr rfl fun l _ => by ring

/-! ## The whole product -/

theorem kToR_weighted (w : ι → ℂ) (f : ι → Lat n → ℂ) (r : Lat n) :
    ∑ i, w i * kToR (f i) r = kToR (fun k => ∑ i, w i * f i k) r := by
  simp only [kToR, fftw_neg_one, smul_eq_mul, Finset.mul_sum]
  rw [Finset.sum_comm]
  exact Finset.sum_congr rfl fun k _ => Finset.sum_congr rfl fun i _ => by ring

theorem rToK_weighted (w : ι → ℂ) (f : ι → Lat n → ℂ) (k : Lat n) :
    rToK (fun r => ∑ i, w i * f i r) k = ∑ i, w i * rToK (f i) k := by
  rw [rToK_sum]
  exact Finset.sum_congr rfl fun i _ => rToK_const_mul _ _ _

theorem toTau_linear (s : Stat) (j : ι) (y : ι → ℂ) :
    M.toTau s y j = ∑ i, (M.kTau * (M.kFreq s)⁻¹) j i * y i := by
  unfold Mesh.toTau
  rw [← kTau_mulVec, Mesh.fitFreq, Matrix.mulVec_mulVec]
  rfl

/-- the value at any time of the function that takes given values at the time nodes -/
theorem evalTau_linear (t : ℝ) : ∃ w : ι → ℂ, ∀ y : ι → ℂ, M.evalTau (M.fitTau y) t = ∑ i, w i * y i := by
  refine ⟨fun i => ∑ l, M.kTau⁻¹ l i * freeTau M.beta t (M.omega l), fun y => ?_⟩
  unfold Mesh.evalTau Mesh.fitTau Matrix.mulVec dotProduct
  simp only [Finset.sum_mul]
  rw [Finset.sum_comm]
  exact Finset.sum_congr rfl fun i _ => Finset.sum_congr rfl fun l _ => by ring

/-- the contraction of a momentum-dependent vertex with a momentum-dependent pair function -/
theorem gammaF_lattice (x : Lat n → T4 o) (F : Lat n → o → o → ℂ) (k : Lat n) (a b : o) :
    rToK (fun r => gammaF (kToR x r) (fun c d => kToR (fun q => F q c d) r) a b) k
      = (∑ q, gammaF (x (k - q)) (F q) a b) / Fintype.card (Lat n) := by
  simp only [gammaF, kToR_apply4, mul_assoc (-(1 / 2) : ℂ)]
  simp only [rToK_sum, rToK_const_mul, rToK_mul]
  have e : ∀ c d, (∑ q, x q c a d b * F (k - q) d c) = ∑ q, x (k - q) c a d b * F q d c := by
    intro c d
    rw [← Equiv.sum_comp (Equiv.subLeft k)]
    exact Finset.sum_congr rfl fun q _ => by simp only [Equiv.subLeft_apply, sub_sub_cancel]
  simp only [e, Finset.sum_div, Finset.mul_sum]
  conv_rhs => rw [Finset.sum_comm]
  refine Finset.sum_congr rfl fun c _ => ?_
  rw [Finset.sum_comm]
  exact Finset.sum_congr rfl fun q _ => Finset.sum_congr rfl fun d _ => by ring

/-- the function of imaginary time that belongs to the pair function at one momentum -/
def pairTau (F : ι → Lat n → o → o → ℂ) (t : ℝ) (q : Lat n) : o → o → ℂ := fun a b =>
  M.evalTau (M.fitFreq .fermion fun j => F j q a b) t

theorem fTr_pair {ranks : ℕ} (hr : 0 < ranks) {lat : List (Lat n)} (hc : Complete lat) (F : ι → Lat n → o → o → ℂ)
    (i : ι) (r : Lat n) (a b : o) :
    M.fTr ranks lat F i r a b = kToR (fun q => pairTau M F (M.tau i) q a b) r := by
  unfold Mesh.fTr Mesh.wrToTr
  dsimp only
  rw [C02_distributedAssign ranks hr lat hc.1, if_pos (hc.2 r), toTau_linear]
  simp only [kToR_apply2]
  rw [kToR_weighted]
  congr 1
  funext q
  rw [← toTau_linear]
  rfl

/-- **C111.**  `eliashberg_product_fft` on a DLR mesh, for every vertex, gap, lattice, number of orbitals and number of
ranks: with the pair function `F` of `C111_pair`, the constant vertex is contracted with the exact value of `F` at
`τ = 0` and enters at every frequency, the dynamic vertex is multiplied with `F` at the time nodes and the product is
interpolated. -/
theorem C111_value (hM : M.Proper) {ranks : ℕ} (hr : 0 < ranks) {nodes : List ι} (hn : nodes.Nodup)
    (hall : ∀ i, i ∈ nodes) {lat : List (Lat n)} (hc : Complete lat) (dyn : ι → Lat n → T4 o) (const : Lat n → T4 o)
    (g delta : ι → Lat n → o → o → ℂ) (j : ι) (k : Lat n) (a b : o) :
    M.productFFT ranks nodes lat (fun i => kToR (dyn i)) (kToR const) g delta j k a b
      = M.toFreq .fermion (fun i => (∑ q, gammaF (dyn i (k - q))
            (pairTau M (M.gDeltaG ranks lat g delta) (M.tau i) q) a b) / Fintype.card (Lat n)) j
        + (∑ q, gammaF (const (k - q)) (pairTau M (M.gDeltaG ranks lat g delta) 0 q) a b)
            / Fintype.card (Lat n) := by
  unfold Mesh.productFFT
  set F := M.gDeltaG ranks lat g delta
  clear_value F
  rw [rToK_apply2]
  have e2 : ∀ f h : Lat n → ℂ, rToK (fun r => f r + h r) k = rToK f k + rToK h k := by
    intro f h
    simp only [rToK, fftw_one, smul_eq_mul, mul_add, Finset.sum_add_distrib]
  rw [e2]
  congr 1
  · unfold Mesh.trToWr Mesh.dynamicGammaF
    dsimp only
    have hnd : (nodes.product lat).Nodup := hn.product hc.1
    have e3 : ∀ r : Lat n, distributedAssign ranks lat (fun r => fun (x : o × o) => M.toFreq .fermion fun i =>
        distributedAssign ranks (nodes.product lat)
          (fun p => gammaF (kToR (dyn p.1) p.2) (M.fTr ranks lat F p.1 p.2)) (i, r) x.1 x.2) r (a, b) j
        = ∑ i, (M.kFreq .fermion * M.kTau⁻¹) j i
            * gammaF (kToR (dyn i) r) (fun c d => kToR (fun q => pairTau M F (M.tau i) q c d) r) a b := by
      intro r
      rw [C02_distributedAssign ranks hr lat hc.1, if_pos (hc.2 r), toFreq_linear]
      refine Finset.sum_congr rfl fun i _ => ?_
      rw [C02_distributedAssign ranks hr _ hnd, if_pos (List.pair_mem_product.2 ⟨hall i, hc.2 r⟩)]
      congr 2
      funext c d
      exact fTr_pair M hr hc F i r c d
    simp only [e3]
    rw [rToK_weighted, toFreq_linear]
    exact Finset.sum_congr rfl fun i _ => by rw [gammaF_lattice]
  · rw [← gammaF_lattice]
    congr 1
    funext r
    unfold Mesh.constantGammaF
    congr 1
    funext c d
    obtain ⟨w, hw⟩ := evalTau_linear M 0
    simp only [fTr_pair M hr hc]
    rw [hw, kToR_weighted]
    congr 1
    funext q
    rw [← hw]
    unfold pairTau
    rw [fitTau_eval M (kTau_isUnit hM)]

/-- **C111.**  With a constant vertex alone the new gap does not depend on frequency. -/
theorem C111_constant (hM : M.Proper) {ranks : ℕ} (hr : 0 < ranks) {nodes : List ι} (hn : nodes.Nodup)
    (hall : ∀ i, i ∈ nodes) {lat : List (Lat n)} (hc : Complete lat) (const : Lat n → T4 o)
    (g delta : ι → Lat n → o → o → ℂ) (j : ι) (k : Lat n) (a b : o) :
    M.productFFT ranks nodes lat (fun _ => kToR fun _ _ _ _ _ => 0) (kToR const) g delta j k a b
      = (∑ q, gammaF (const (k - q)) (pairTau M (M.gDeltaG ranks lat g delta) 0 q) a b) / Fintype.card (Lat n) := by
  rw [C111_value M hM hr hn hall hc (fun _ _ _ _ _ _ => 0), toFreq_linear]
  simp [gammaF]

/-- **C111.**  Neither product depends on the number of ranks. -/
theorem C111_ranks {ranks ranks' : ℕ} (hr : 0 < ranks) (hr' : 0 < ranks') {nodes : List ι} (hn : nodes.Nodup)
    {lat : List (Lat n)} (hc : Complete lat) (dyn : ι → Lat n → T4 o) (const : Lat n → T4 o)
    (g delta : ι → Lat n → o → o → ℂ) :
    M.productFFT ranks nodes lat dyn const g delta = M.productFFT ranks' nodes lat dyn const g delta := by
  have h1 : ∀ {X : Type} [AddCommMonoid X] (f : Lat n → X), distributedAssign ranks lat f
      = distributedAssign ranks' lat f := by
    intro X _ f
    exact (C02_rank_independent ranks ranks' hr hr' lat hc.1 f fun _ (_ : Unit) => 0).1
  have h2 : ∀ {X : Type} [AddCommMonoid X] (f : ι × Lat n → X), distributedAssign ranks (nodes.product lat) f
      = distributedAssign ranks' (nodes.product lat) f := by
    intro X _ f
    exact (C02_rank_independent ranks ranks' hr hr' (nodes.product lat) (hn.product hc.1) f fun _ (_ : Unit) => 0).1
  unfold Mesh.productFFT Mesh.fTr Mesh.gDeltaG Mesh.wrToTr Mesh.trToWr Mesh.dynamicGammaF
  simp only [h1, h2]

end Lattice

/-! ## A double pole -/

/-- a mesh with one pole at zero -/
def onePole (t : ℝ) : Mesh Unit where
  beta := 1
  omega := fun _ => 0
  tau := fun _ => t
  nu := fun _ _ => 0

theorem onePole_proper (t : ℝ) : (onePole t).Proper where
  beta_pos := one_pos
  omega := fun _ _ _ => rfl
  tau := fun _ _ _ => rfl
  nu := fun _ _ _ _ => rfl
  zero := fun _ => ⟨(), rfl⟩

theorem onePole_double (t : ℝ) : doublePole (onePole t) () () = (1 / 2 - t : ℝ) / (I * Real.pi) := by
  have h1 : diagTau 1 t 0 = (1 / 2 - t : ℝ) * freeTau 1 t 0 := by
    have hw : weight 1 0 = 1 / 2 := by
      have := weight_mul 1 0
      simp only [neg_zero, zero_mul, Real.exp_zero] at this
      linarith
    rw [freeTau_eq]
    unfold diagTau
    rw [hw]
    simp
    ring
  unfold doublePole
  have h2 : (fun i => diagTau (onePole t).beta ((onePole t).tau i) ((onePole t).omega ()))
      = fun i : Unit => ((1 / 2 - t : ℝ) : ℂ) * freeTau (onePole t).beta ((onePole t).tau i) ((onePole t).omega ()) :=
    funext fun _ => h1
  rw [h2, toFreq_linear]
  have h3 : ∑ i, ((onePole t).kFreq .fermion * (onePole t).kTau⁻¹) () i
        * (((1 / 2 - t : ℝ) : ℂ) * freeTau (onePole t).beta ((onePole t).tau i) ((onePole t).omega ()))
      = ((1 / 2 - t : ℝ) : ℂ) * (onePole t).toFreq .fermion
          (fun i => freeTau (onePole t).beta ((onePole t).tau i) ((onePole t).omega ())) () := by
    rw [toFreq_linear, Finset.mul_sum]
    exact Finset.sum_congr rfl fun i _ => by ring
  rw [h3, toFreq_kernel _ _ (onePole_proper t)]
  simp [kernelFreq, matsubara, onePole, div_eq_mul_inv]

/-- **C111 (violated).**  On a mesh with the single pole zero, wherever its time node is, the pair function of a Green's
function and a gap that are both represented exactly differs from the product of their values. -/
theorem C111_double_violated (t : ℝ) :
    let M := onePole t
    let v : ℂ := 1 / (I * Real.pi)
    M.convTerm (fun _ => v) (fun _ => v) () ≠ v * v := by
  intro M v
  have hv : v ≠ 0 := by
    have hpi : (Real.pi : ℂ) ≠ 0 := by exact_mod_cast Real.pi_ne_zero
    exact one_div_ne_zero (mul_ne_zero I_ne_zero hpi)
  have hfit : M.fitFreq .fermion (fun _ => v) () = 1 := by
    have h1 := fitFreq_eval M .fermion (kFreq_isUnit (onePole_proper t) _) (fun _ => 1)
    have h2 : (fun j => M.evalFreq .fermion (fun _ => (1 : ℂ)) (M.nu .fermion j)) = fun _ => v := by
      funext j
      simp [Mesh.evalFreq, kernelFreq, matsubara, M, onePole, v]
    rw [h2] at h1
    rw [h1]
  intro h
  rw [C111_term M (onePole_proper t), sub_eq_self] at h
  simp only [Finset.univ_unique, Finset.sum_singleton, PUnit.default_eq_unit, hfit, one_mul, onePole_double, M] at h
  have hk : (1 / (matsubara .fermion (onePole t).beta ((onePole t).nu .fermion ()) - ((onePole t).omega () : ℂ))) = v := by
    simp [matsubara, onePole, v]
  rw [hk] at h
  have h2 : v ^ 2 = (1 / 2 - t : ℝ) * v := by
    rw [sub_eq_zero.1 h]
    simp only [v]
    ring
  have h3 : v = ((1 / 2 - t : ℝ) : ℂ) := by
    rw [sq] at h2
    exact mul_right_cancel₀ hv h2
  have h4 := congrArg Complex.im h3
  have h5 : v = ((-(1 / Real.pi) : ℝ) : ℂ) * I := by
    have hpi : (Real.pi : ℂ) ≠ 0 := by exact_mod_cast Real.pi_ne_zero
    simp only [v]
    push_cast
    field_simp
    rw [I_sq]
    ring
  rw [h5] at h4
  simp at h4

end Verif.Dlr
