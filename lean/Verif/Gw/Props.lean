import Verif.Gw.Model
import Verif.Lindhard.Props
import Verif.Util.Props
import Mathlib.Algebra.BigOperators.Field

/-!
# C64, C65, C66: Hartree, Fock and GW self energies
-/

noncomputable section

namespace Verif.Gw

open Complex Verif.Parallel Verif.Fourier Verif.Bubble Verif.Lindhard

variable {d : ℕ} {n : Fin d → ℕ} [∀ i, NeZero (n i)] {o : Type*} [Fintype o] [DecidableEq o]

set_option linter.unusedSectionVars false

/-! ## Complete meshes -/

/-- a list of all lattice points, each once -/
def Complete (mesh : List (Lat n)) : Prop := mesh.Nodup ∧ ∀ k, k ∈ mesh

theorem Complete.length {mesh : List (Lat n)} (h : Complete mesh) : mesh.length = Fintype.card (Lat n) := by
  have hu : mesh.toFinset = Finset.univ := by ext k; simp [h.2 k]
  rw [← List.toFinset_card_of_nodup h.1, hu, Finset.card_univ]

theorem Complete.sum {E : Type*} [AddCommMonoid E] {mesh : List (Lat n)} (h : Complete mesh) (f : Lat n → E) :
    (mesh.map f).sum = ∑ k, f k := by
  have hu : mesh.toFinset = Finset.univ := by ext k; simp [h.2 k]
  rw [← List.sum_toFinset _ h.1, hu]

theorem Complete.assign {E : Type*} [AddCommMonoid E] {mesh : List (Lat n)} (h : Complete mesh) {ranks : ℕ}
    (hr : 0 < ranks) (f : Lat n → E) : distributedAssign ranks mesh f = f := by
  funext k
  rw [C02_distributedAssign ranks hr _ h.1, if_pos (h.2 k)]

theorem exists_complete : ∃ mesh : List (Lat n), Complete mesh :=
  ⟨Finset.univ.toList, Finset.nodup_toList _, fun k => by simp⟩

/-! ## Fourier transforms componentwise -/

theorem kToR_apply2 (f : Lat n → o → o → ℂ) (r : Lat n) (a b : o) :
    kToR f r a b = kToR (fun k => f k a b) r := by
  simp [kToR, fftw, Finset.sum_apply]

theorem kToR_apply4 (f : Lat n → T4 o) (r : Lat n) (a b c d : o) :
    kToR f r a b c d = kToR (fun k => f k a b c d) r := by
  simp [kToR, fftw, Finset.sum_apply]

theorem rToK_apply2 (f : Lat n → o → o → ℂ) (r : Lat n) (a b : o) :
    rToK f r a b = rToK (fun k => f k a b) r := by
  simp [rToK, fftw, Finset.sum_apply]

theorem rToK_sum {ι : Type*} (s : Finset ι) (f : ι → Lat n → ℂ) (k : Lat n) :
    rToK (fun r => ∑ i ∈ s, f i r) k = ∑ i ∈ s, rToK (f i) k := by
  simp only [rToK, fftw_one, smul_eq_mul, Finset.mul_sum]
  rw [Finset.sum_comm]

theorem rToK_neg (f : Lat n → ℂ) (k : Lat n) : rToK (fun r => -f r) k = -rToK f k := by
  simp [rToK, fftw]

/-- the product of two functions on the lattice is the convolution of their transforms -/
theorem rToK_mul (f g : Lat n → ℂ) (k : Lat n) :
    rToK (fun r => kToR f r * kToR g r) k = (∑ q, f q * g (k - q)) / Fintype.card (Lat n) := by
  have h := rToK_product f (fun p => g (-p)) k
  have e : ∀ r : Lat n, kToR (fun p => g (-p)) (-r) = kToR g r := by
    intro r
    rw [kToR_neg]
    simp
  simp only [e] at h
  rw [h]
  congr 1
  refine Finset.sum_congr rfl fun q _ => ?_
  rw [neg_sub]

/-! ## Explicit values -/

theorem hartreeK_eq {ranks : ℕ} (hr : 0 < ranks) {kmesh : List (Lat n)} (hc : Complete kmesh)
    (v : Lat n → T4 o) (dens : Lat n → o → o → ℂ) (k : Lat n) (a b : o) :
    hartreeK ranks kmesh v dens k a b
      = (Fintype.card (Lat n) : ℂ)⁻¹ * ∑ q, ∑ c, ∑ d, v q a b c d * dens (k + q) c d := by
  rw [hartreeK, hc.assign hr, hc.sum, hc.length]
  simp only [div_eq_inv_mul, Finset.mul_sum]

theorem fockK_eq {ranks : ℕ} (hr : 0 < ranks) {kmesh : List (Lat n)} (hc : Complete kmesh)
    (v : Lat n → T4 o) (dens : Lat n → o → o → ℂ) (k : Lat n) (a b : o) :
    fockK ranks kmesh v dens k a b
      = -((Fintype.card (Lat n) : ℂ)⁻¹ * ∑ q, ∑ c, ∑ d, v q a c d b * dens (k + q) d c) := by
  rw [fockK, hc.assign hr, hc.sum, hc.length]
  simp only [div_eq_inv_mul, Finset.mul_sum, neg_mul, mul_neg, Finset.sum_neg_distrib]

theorem fockR_eq {ranks : ℕ} (hr : 0 < ranks) {kmesh : List (Lat n)} (hc : Complete kmesh)
    (v : Lat n → T4 o) (rho : Lat n → o → o → ℂ) (k : Lat n) (a b : o) :
    rToK (fockR ranks kmesh (kToR v) (kToR rho)) k a b
      = -((Fintype.card (Lat n) : ℂ)⁻¹ * ∑ q, ∑ c, ∑ d, v q a c d b * rho (k - q) d c) := by
  rw [fockR, hc.assign hr, rToK_apply2]
  simp only [kToR_apply4, kToR_apply2, neg_mul, Finset.sum_neg_distrib]
  rw [rToK_neg, rToK_sum]
  congr 1
  have : ∀ c, rToK (fun r => ∑ d, kToR (fun k => v k a c d b) r * kToR (fun k => rho k d c) r) k
      = (Fintype.card (Lat n) : ℂ)⁻¹ * ∑ q, ∑ d, v q a c d b * rho (k - q) d c := by
    intro c
    rw [rToK_sum]
    simp only [rToK_mul, div_eq_inv_mul, ← Finset.mul_sum]
    rw [Finset.sum_comm]
  simp only [this, ← Finset.mul_sum]
  rw [Finset.sum_comm]

theorem hartreeR_eq (v : Lat n → T4 o) (rho : Lat n → o → o → ℂ) (k : Lat n) (a b : o) :
    rToK (hartreeR v (kToR rho)) k a b
      = (Fintype.card (Lat n) : ℂ)⁻¹ * ∑ q, ∑ c, ∑ d, v 0 a b c d * rho (k + q) c d := by
  rw [rToK_apply2, rToK, fftw_one]
  rw [Finset.sum_eq_single 0]
  · rw [ker_zero_left, one_smul, hartreeR, Function.update_self]
    have : ∀ c d, kToR rho 0 c d = (Fintype.card (Lat n) : ℂ)⁻¹ * ∑ q, rho (k + q) c d := by
      intro c d
      rw [kToR_apply2, (C06_normalisation _).1, smul_eq_mul]
      congr 1
      exact (Equiv.sum_comp (Equiv.addLeft k) (fun x => rho x c d)).symm
    simp only [this, Finset.mul_sum]
    rw [Finset.sum_comm' (t' := Finset.univ) (s' := fun _ => Finset.univ) (by simp)]
    conv_rhs => rw [Finset.sum_comm]
    rw [Finset.sum_comm]
    refine Finset.sum_congr rfl fun c _ => ?_
    rw [Finset.sum_comm]
    refine Finset.sum_congr rfl fun d _ => Finset.sum_congr rfl fun q _ => ?_
    ring
  · intro r _ hne
    rw [hartreeR, Function.update_of_ne hne]
    simp
  · simp

/-! ## C64 -/

/-- C64 (partial: interactions without momentum dependence): both Hartree routines agree, for every density, number
of orbitals, lattice and number of ranks. -/
theorem C64_partial {ranks : ℕ} (hr : 0 < ranks) {kmesh : List (Lat n)} (hc : Complete kmesh)
    (v : Lat n → T4 o) (hv : ∀ q, v q = v 0) (rho : Lat n → o → o → ℂ) :
    rToK (hartreeR v (kToR rho)) = hartreeK ranks kmesh v rho := by
  funext k a b
  rw [hartreeR_eq, hartreeK_eq hr hc]
  congr 1
  refine Finset.sum_congr rfl fun q _ => ?_
  rw [hv q]

/-- C64: the real space routine gives the Hartree potential of the zero momentum interaction and the total density,
which does not depend on momentum. -/
theorem C64_real_space (v : Lat n → T4 o) (rho : Lat n → o → o → ℂ) (k : Lat n) (a b : o) :
    rToK (hartreeR v (kToR rho)) k a b
      = ∑ c, ∑ d, v 0 a b c d * ((Fintype.card (Lat n) : ℂ)⁻¹ * ∑ p, rho p c d) := by
  rw [hartreeR_eq]
  have : ∀ c d, ∑ p, rho p c d = ∑ q, rho (k + q) c d := by
    intro c d
    exact (Equiv.sum_comp (Equiv.addLeft k) (fun x => rho x c d)).symm
  simp only [this, Finset.mul_sum]
  rw [Finset.sum_comm]
  refine Finset.sum_congr rfl fun c _ => ?_
  rw [Finset.sum_comm]
  refine Finset.sum_congr rfl fun d _ => Finset.sum_congr rfl fun q _ => ?_
  ring

/-- two point lattice in one dimension -/
abbrev L2 := Lat (fun _ : Fin 1 => 2)

/-- three point lattice in one dimension -/
abbrev L3 := Lat (fun _ : Fin 1 => 3)

/-- C64 is violated for a momentum dependent interaction: two momenta, one orbital. -/
theorem C64_violated : ∃ (v : L2 → T4 Unit) (rho : L2 → Unit → Unit → ℂ),
    ∀ (ranks : ℕ) (_ : 0 < ranks) (kmesh : List L2) (_ : Complete kmesh),
      rToK (hartreeR v (kToR rho)) ≠ hartreeK ranks kmesh v rho := by
  refine ⟨fun q _ _ _ _ => if q = 0 then 0 else 1, fun _ _ _ => 1, fun ranks hr kmesh hc h => ?_⟩
  have h0 := congrFun (congrFun (congrFun h 0) ()) ()
  rw [hartreeR_eq, hartreeK_eq hr hc] at h0
  have hN := card_ne_zero' (n := fun _ : Fin 1 => 2)
  simp at h0
  rw [Finset.sum_ite] at h0
  simp at h0
  exact absurd (@h0 fun _ => 1) (by decide)

/-! ## C65 -/

/-- C65: the real space Fock product is the momentum convolution with the interaction at the opposite momentum
transfer. -/
theorem C65_relation {r1 r2 : ℕ} (h1 : 0 < r1) (h2 : 0 < r2) {kmesh : List (Lat n)} (hc : Complete kmesh)
    (v : Lat n → T4 o) (rho : Lat n → o → o → ℂ) :
    rToK (fockR r1 kmesh (kToR v) (kToR rho)) = fockK r2 kmesh (fun q => v (-q)) rho := by
  funext k a b
  rw [fockR_eq h1 hc, fockK_eq h2 hc, ← Equiv.sum_comp (Equiv.neg (Lat n))]
  simp only [Equiv.neg_apply, sub_neg_eq_add]

/-- C65 (interactions with `v(-q) = v(q)`): both Fock routines agree. -/
theorem C65_partial {r1 r2 : ℕ} (h1 : 0 < r1) (h2 : 0 < r2) {kmesh : List (Lat n)} (hc : Complete kmesh)
    (v : Lat n → T4 o) (hv : ∀ q, v (-q) = v q) (rho : Lat n → o → o → ℂ) :
    rToK (fockR r1 kmesh (kToR v) (kToR rho)) = fockK r2 kmesh v rho := by
  rw [C65_relation h1 h2 hc]
  simp only [hv]

/-- C65: without the symmetry `v(-q) = v(q)` the routines differ: three momenta, one orbital. -/
theorem C65_violated : ∃ (v : L3 → T4 Unit) (rho : L3 → Unit → Unit → ℂ),
    ∀ (ranks : ℕ) (_ : 0 < ranks) (kmesh : List L3) (_ : Complete kmesh),
      rToK (fockR ranks kmesh (kToR v) (kToR rho)) ≠ fockK ranks kmesh v rho := by
  refine ⟨fun q _ _ _ _ => if q = fun _ => 1 then 1 else 0, fun k _ _ => if k = fun _ => 1 then 1 else 0,
    fun ranks hr kmesh hc h => ?_⟩
  have h0 := congrFun (congrFun (congrFun h 0) ()) ()
  rw [fockR_eq hr hc, fockK_eq hr hc] at h0
  have hN := card_ne_zero' (n := fun _ : Fin 1 => 3)
  simp at h0
  rw [Finset.sum_eq_zero] at h0
  · simp at h0
  · intro x _
    by_cases hx : x = fun _ => 1
    · have e : (-fun _ => 1 : L3) ≠ fun _ => 1 := by decide
      simp [hx, e]
    · simp [hx]

/-- non-trivial instance of C64, C65: a complete mesh and an even, momentum dependent interaction exist -/
example : ∃ (kmesh : List L3) (v : L3 → T4 (Fin 2)), Complete kmesh ∧ (∀ q, v (-q) = v q) ∧ v 0 ≠ v (fun _ => 1) := by
  obtain ⟨m, hm⟩ := exists_complete (n := fun _ : Fin 1 => 3)
  refine ⟨m, fun q _ _ _ _ => if q = 0 then 1 else 0, hm, fun q => by simp, fun h => ?_⟩
  have := congrFun (congrFun (congrFun (congrFun h 0) 0) 0) 0
  have e : (fun _ => 1 : L3) ≠ 0 := by decide
  simp [e] at this

/-! ## C66 -/

/-- the transforms, the tail fit and the density are linear -/
structure Linear (P : Pieces) : Prop where
  g_add : ∀ x y, P.gToTau (x + y) = P.gToTau x + P.gToTau y
  g_smul : ∀ (c : ℂ) x, P.gToTau (c • x) = c • P.gToTau x
  w_add : ∀ x y, P.wToTau (x + y) = P.wToTau x + P.wToTau y
  w_smul : ∀ (c : ℂ) x, P.wToTau (c • x) = c • P.wToTau x
  f_add : ∀ x y, P.toFreq (x + y) = P.toFreq x + P.toFreq y
  f_smul : ∀ (c : ℂ) x, P.toFreq (c • x) = c • P.toFreq x
  t_add : ∀ x y, P.tail0 (x + y) = P.tail0 x + P.tail0 y
  t_smul : ∀ (c : ℂ) x, P.tail0 (c • x) = c * P.tail0 x

theorem lin_sum {A B : Type*} {ι : Type*} (T : (A → ℂ) → B → ℂ) (ha : ∀ x y, T (x + y) = T x + T y)
    (hs : ∀ (c : ℂ) x, T (c • x) = c • T x) (s : Finset ι) (c : ι → ℂ) (f : ι → A → ℂ) :
    T (fun w => ∑ i ∈ s, c i * f i w) = fun t => ∑ i ∈ s, c i * T (f i) t := by
  classical
  induction s using Finset.induction_on with
  | empty =>
    have := hs 0 0
    simp only [zero_smul] at this
    simp only [Finset.sum_empty]
    exact this
  | insert i s hi ih =>
    have e : (fun w => ∑ j ∈ insert i s, c j * f j w) = c i • f i + fun w => ∑ j ∈ s, c j * f j w := by
      funext w; simp [Finset.sum_insert hi]
    rw [e, ha, hs, ih]
    funext t
    simp [Finset.sum_insert hi]

theorem lin_kToR {B : Type*} (T : (ℤ → ℂ) → B → ℂ) (ha : ∀ x y, T (x + y) = T x + T y)
    (hs : ∀ (c : ℂ) x, T (c • x) = c • T x) (f : ℤ → Lat n → ℂ) (r : Lat n) (t : B) :
    T (fun w => kToR (f w) r) t = kToR (fun k => T (fun w => f w k) t) r := by
  have e : (fun w => kToR (f w) r) = fun w => ∑ k, ((Fintype.card (Lat n) : ℂ)⁻¹ * ker (-k) r) * f w k := by
    funext w
    simp only [kToR, fftw_neg_one, smul_eq_mul, Finset.mul_sum, mul_assoc]
  rw [e, lin_sum T ha hs]
  simp only [kToR, fftw_neg_one, smul_eq_mul, Finset.mul_sum, mul_assoc]

/-- The documented GW self energy: dynamic part as imaginary time product with momentum convolution, transformed to
frequency, plus exchange with the static part of the interaction. -/
def gwSpec (P : Pieces) (W : ℤ → Lat n → T4 o) (g : ℤ → Lat n → o → o → ℂ) (w : ℤ) (k : Lat n) (a b : o) : ℂ :=
  P.toFreq (fun t => -((Fintype.card (Lat n) : ℂ)⁻¹ * ∑ q, ∑ c, ∑ d,
      P.wToTau (fun m => W m q a c d b - P.tail0 fun m => W m q a c d b) t
        * P.gToTau (fun m => g m (k - q) c d) t)) w
    - (Fintype.card (Lat n) : ℂ)⁻¹ * ∑ q, ∑ c, ∑ d, P.tail0 (fun m => W m q a c d b)
        * P.dens (fun m => g m (k - q) c d)

/-- the four conditions under which `gw_sigma` computes a result -/
def GwOk {M : Type} (P : Pieces) (Ww gw : FreqMesh) (Wk gk : M) : Prop :=
  Ww.beta = gw.beta ∧ Ww.stat = .boson ∧ gw.stat = .fermion ∧ Wk = gk ∧ P.ntau Ww.nw = P.ntau gw.nw

/-- what is required of the list of time indices: complete for the output transform -/
def TausOk (P : Pieces) (taus : List ℕ) : Prop :=
  taus.Nodup ∧ ∀ x y : ℕ → ℂ, (∀ t ∈ taus, x t = y t) → P.toFreq x = P.toFreq y

theorem product_mem {taus : List ℕ} {lat : List (Lat n)} (hc : Complete lat) (t : ℕ) (r : Lat n) :
    (t, r) ∈ taus.product lat ↔ t ∈ taus := by
  rw [List.pair_mem_product]
  exact ⟨fun h => h.1, fun h => ⟨h, hc.2 r⟩⟩

/-- C66: on matching meshes `gw_sigma` is the documented sum of dynamic and static parts, whatever the number of
ranks. -/
theorem C66_value {M : Type} {ranks : ℕ} (hr : 0 < ranks) (P : Pieces) (hP : Linear P) (Ww gw : FreqMesh)
    (Wk gk : M) (hok : GwOk P Ww gw Wk gk) {taus : List ℕ} (ht : TausOk P taus) {lat : List (Lat n)}
    (hc : Complete lat) (W : ℤ → Lat n → T4 o) (g : ℤ → Lat n → o → o → ℂ) :
    gwSigma ranks P Ww gw Wk gk taus lat W g = .ok (gwSpec P W g) := by
  obtain ⟨h1, h2, h3, h4, h5⟩ := hok
  have hsplit1 : (Util.split ranks lat (fun (f : ℤ → T4 o) a b c d => P.tail0 fun w => f w a b c d) W).1
      = fun w k a b c d => W w k a b c d - P.tail0 fun m => W m k a b c d := by
    funext w k
    rw [Util.split, hc.assign hr]
    rfl
  have hsplit2 : (Util.split ranks lat (fun (f : ℤ → T4 o) a b c d => P.tail0 fun w => f w a b c d) W).2
      = fun k a b c d => P.tail0 fun m => W m k a b c d := by
    change distributedAssign ranks lat _ = _
    rw [hc.assign hr]
  have hnd : (taus.product lat).Nodup := ht.1.product hc.1
  simp only [gwSigma, gwDynamicSigma, h1, h2, h3, h4, h5, ne_eq, not_true_eq_false, or_self, if_false]
  congr 1
  funext w k a b
  rw [gwSpec, sub_eq_add_neg]
  congr 1
  · refine congrFun (ht.2 _ _ ?_) w
    intro t htm
    rw [rToK_apply2]
    have e1 : ∀ r : Lat n, distributedAssign ranks (taus.product lat)
        (fun p => gwPoint (fun a b c d => P.wToTau (fun w => kToR
          ((Util.split ranks lat (fun (f : ℤ → T4 o) a b c d => P.tail0 fun w => f w a b c d) W).1 w)
            p.2 a b c d) p.1)
          (fun a b => P.gToTau (fun w => kToR (g w) p.2 a b) p.1)) (t, r) a b
        = -∑ c, ∑ d, kToR (fun q => P.wToTau (fun m => W m q a c d b - P.tail0 fun m => W m q a c d b) t) r
            * kToR (fun q => P.gToTau (fun m => g m q c d) t) r := by
      intro r
      rw [C02_distributedAssign ranks hr _ hnd, if_pos ((product_mem hc t r).2 htm), hsplit1]
      simp only [gwPoint, neg_mul, Finset.sum_neg_distrib, kToR_apply4, kToR_apply2]
      simp only [lin_kToR P.wToTau hP.w_add hP.w_smul, lin_kToR P.gToTau hP.g_add hP.g_smul]
    simp only [e1]
    rw [rToK_neg, rToK_sum]
    congr 1
    have e2 : ∀ c, rToK (fun r => ∑ d, kToR (fun q => P.wToTau
          (fun m => W m q a c d b - P.tail0 fun m => W m q a c d b) t) r
            * kToR (fun q => P.gToTau (fun m => g m q c d) t) r) k
        = (Fintype.card (Lat n) : ℂ)⁻¹ * ∑ q, ∑ d,
          P.wToTau (fun m => W m q a c d b - P.tail0 fun m => W m q a c d b) t
            * P.gToTau (fun m => g m (k - q) c d) t := by
      intro c
      rw [rToK_sum]
      simp only [rToK_mul, div_eq_inv_mul, ← Finset.mul_sum]
      rw [Finset.sum_comm]
    simp only [e2, ← Finset.mul_sum]
    rw [Finset.sum_comm]
  · rw [fockR_eq hr hc, hsplit2]
    simp only [rhoK, hc.assign hr, densityOf]

/-- C66: every mismatch is refused. -/
theorem C66_refuses {M : Type} (ranks : ℕ) (P : Pieces) (Ww gw : FreqMesh)
    (Wk gk : M) (hok : ¬ GwOk P Ww gw Wk gk) (taus : List ℕ) (lat : List (Lat n))
    (W : ℤ → Lat n → T4 o) (g : ℤ → Lat n → o → o → ℂ) :
    ∃ e, gwSigma ranks P Ww gw Wk gk taus lat W g = .error e := by
  unfold gwSigma
  split_ifs with h1 h2 h3
  · exact ⟨_, rfl⟩
  · exact ⟨_, rfl⟩
  · exact ⟨_, rfl⟩
  · push Not at h1 h2 h3
    have h5 : P.ntau Ww.nw ≠ P.ntau gw.nw := fun h => hok ⟨h1, h2.1, h2.2, h3, h⟩
    simp only [gwDynamicSigma, h5, ne_eq, not_false_eq_true, true_or, if_true]
    exact ⟨_, rfl⟩

/-- C66: the imaginary time routine is the orbital contraction point by point and refuses mismatched meshes. -/
theorem C66_dynamic {M : Type} {ranks : ℕ} (hr : 0 < ranks) (Wt gt : TauMesh) (Wr gr : M)
    (mesh : List (ℕ × Lat n)) (hnd : mesh.Nodup) (W : ℕ → Lat n → T4 o) (g : ℕ → Lat n → o → o → ℂ) :
    (Wt.size = gt.size ∧ Wt.beta = gt.beta ∧ Wt.stat = .boson ∧ gt.stat = .fermion ∧ Wr = gr →
      ∃ s, gwDynamicSigma ranks Wt gt Wr gr mesh W g = .ok s ∧
        ∀ t r, (t, r) ∈ mesh → ∀ a b, s (t, r) a b = -∑ c, ∑ d, W t r a c d b * g t r c d) ∧
    (¬ (Wt.size = gt.size ∧ Wt.beta = gt.beta ∧ Wt.stat = .boson ∧ gt.stat = .fermion ∧ Wr = gr) →
      ∃ e, gwDynamicSigma ranks Wt gt Wr gr mesh W g = .error e) := by
  constructor
  · rintro ⟨h1, h2, h3, h4, h5⟩
    refine ⟨distributedAssign ranks mesh fun p => gwPoint (W p.1 p.2) (g p.1 p.2),
      by simp only [gwDynamicSigma, h1, h2, h3, h4, h5, ne_eq, not_true_eq_false, or_self, if_false],
      fun t r hm a b => ?_⟩
    rw [C02_distributedAssign ranks hr _ hnd, if_pos hm]
    simp only [gwPoint, neg_mul, Finset.sum_neg_distrib]
  · intro h
    unfold gwDynamicSigma
    split_ifs with h1 h2 h3
    · exact ⟨_, rfl⟩
    · exact ⟨_, rfl⟩
    · exact ⟨_, rfl⟩
    · push Not at h1 h2 h3
      exact absurd ⟨h1.1, h1.2, h2.1, h2.2, h3⟩ h

/-- C66: additive and homogeneous in the interaction. -/
theorem C66_linear (P : Pieces) (hP : Linear P) (W W' : ℤ → Lat n → T4 o) (x : ℂ)
    (g : ℤ → Lat n → o → o → ℂ) (w : ℤ) (k : Lat n) (a b : o) :
    gwSpec P (fun w k a b c d => W w k a b c d + x * W' w k a b c d) g w k a b
      = gwSpec P W g w k a b + x * gwSpec P W' g w k a b := by
  have ht : ∀ (q : Lat n) (a b c d : o), P.tail0 (fun m => W m q a b c d + x * W' m q a b c d)
      = P.tail0 (fun m => W m q a b c d) + x * P.tail0 (fun m => W' m q a b c d) := by
    intro q a b c d
    rw [← hP.t_smul, ← hP.t_add]
    rfl
  have hw : ∀ (q : Lat n) (a b c d : o), P.wToTau (fun m => W m q a b c d + x * W' m q a b c d
        - (P.tail0 (fun m => W m q a b c d) + x * P.tail0 (fun m => W' m q a b c d)))
      = P.wToTau (fun m => W m q a b c d - P.tail0 (fun m => W m q a b c d))
        + x • P.wToTau (fun m => W' m q a b c d - P.tail0 (fun m => W' m q a b c d)) := by
    intro q a b c d
    rw [← hP.w_smul, ← hP.w_add]
    congr 1
    funext m
    simp only [Pi.add_apply, Pi.smul_apply, smul_eq_mul]
    ring
  simp only [gwSpec, ht, hw]
  have e1 : (fun t => -((Fintype.card (Lat n) : ℂ)⁻¹ * ∑ q, ∑ c, ∑ d,
      (P.wToTau (fun m => W m q a c d b - P.tail0 fun m => W m q a c d b)
        + x • P.wToTau (fun m => W' m q a c d b - P.tail0 fun m => W' m q a c d b)) t
        * P.gToTau (fun m => g m (k - q) c d) t))
      = (fun t => -((Fintype.card (Lat n) : ℂ)⁻¹ * ∑ q, ∑ c, ∑ d,
      P.wToTau (fun m => W m q a c d b - P.tail0 fun m => W m q a c d b) t
        * P.gToTau (fun m => g m (k - q) c d) t))
        + x • (fun t => -((Fintype.card (Lat n) : ℂ)⁻¹ * ∑ q, ∑ c, ∑ d,
      P.wToTau (fun m => W' m q a c d b - P.tail0 fun m => W' m q a c d b) t
        * P.gToTau (fun m => g m (k - q) c d) t)) := by
    funext t
    simp only [Pi.add_apply, Pi.smul_apply, smul_eq_mul, add_mul, Finset.sum_add_distrib, mul_add, mul_assoc,
      ← Finset.mul_sum]
    ring
  rw [e1, hP.f_add, hP.f_smul]
  simp only [Pi.add_apply, Pi.smul_apply, smul_eq_mul, add_mul, Finset.sum_add_distrib, mul_add, mul_assoc,
      ← Finset.mul_sum]
  ring

/-- C66: no interaction, no self energy. -/
theorem C66_zero (P : Pieces) (hP : Linear P) (g : ℤ → Lat n → o → o → ℂ) (w : ℤ) (k : Lat n) (a b : o) :
    gwSpec P (fun _ _ _ _ _ _ => 0) g w k a b = 0 := by
  have h := C66_linear P hP (fun _ _ _ _ _ _ => 0) (fun _ _ _ _ _ _ => 0) (-1) g w k a b
  simp only [mul_zero, add_zero] at h
  linear_combination h

/-- C66: for an interaction without frequency dependence `gw_sigma` of the dynamic routine is the static Fock routine
with the interaction at opposite momentum transfer. -/
theorem C66_static_limit {ranks : ℕ} (hr : 0 < ranks) {lat : List (Lat n)} (hc : Complete lat) (P : Pieces)
    (hP : Linear P) (ht : ∀ x : ℂ, P.tail0 (fun _ => x) = x) (v : Lat n → T4 o)
    (g : ℤ → Lat n → o → o → ℂ) (w : ℤ) :
    gwSpec P (fun _ => v) g w = fockK ranks lat (fun q => v (-q)) (rhoK ranks lat (densityOf P) g) := by
  funext k a b
  rw [← C65_relation hr hr hc, fockR_eq hr hc, gwSpec]
  have hw : P.wToTau (fun _ : ℤ => (0 : ℂ)) = 0 := by
    have := hP.w_smul 0 0
    simp only [zero_smul] at this
    exact this
  have hf : P.toFreq (fun _ : ℕ => (0 : ℂ)) = 0 := by
    have := hP.f_smul 0 0
    simp only [zero_smul] at this
    exact this
  simp only [ht, sub_self, hw, Pi.zero_apply, zero_mul, Finset.sum_const_zero, mul_zero, neg_zero, hf, zero_sub,
    rhoK, hc.assign hr, densityOf]

/-- C66: hence for an even static interaction both overloads of `gw_sigma` agree. -/
theorem C66_static_overloads {ranks : ℕ} (hr : 0 < ranks) {lat : List (Lat n)} (hc : Complete lat) (P : Pieces)
    (hP : Linear P) (ht : ∀ x : ℂ, P.tail0 (fun _ => x) = x) (v : Lat n → T4 o) (hv : ∀ q, v (-q) = v q)
    (g : ℤ → Lat n → o → o → ℂ) (w : ℤ) :
    gwSpec P (fun _ => v) g w = fockK ranks lat v (rhoK ranks lat (densityOf P) g) := by
  rw [C66_static_limit hr hc P hP ht]
  simp only [hv]

/-- pieces used in the examples: times and frequencies identified -/
def toyPieces : Pieces where
  gToTau x t := x t
  wToTau x t := x t
  toFreq x w := x w.toNat
  tail0 x := x 0
  dens x := x 0
  ntau nw := 6 * nw + 1

theorem toyPieces_linear : Linear toyPieces := by
  constructor <;> intros <;> rfl

/-- C66 is violated with respect to the documented static part `-1/N Σ_q V(q) ρ(k+q)`: three momenta, interaction
without frequency dependence, not even in momentum. -/
theorem C66_doc_violated : ∃ (P : Pieces) (_ : Linear P) (_ : ∀ x : ℂ, P.tail0 (fun _ => x) = x) (v : L3 → T4 Unit)
    (g : ℤ → L3 → Unit → Unit → ℂ) (w : ℤ), ∀ (ranks : ℕ) (_ : 0 < ranks) (lat : List L3) (_ : Complete lat),
    gwSpec P (fun _ => v) g w ≠ fockK ranks lat v (rhoK ranks lat (densityOf P) g) := by
  refine ⟨toyPieces, toyPieces_linear, fun _ => rfl, fun q _ _ _ _ => if q = fun _ => 1 then 1 else 0,
    fun _ k _ _ => if k = fun _ => 1 then 1 else 0, 0, fun ranks hr lat hc h => ?_⟩
  rw [C66_static_limit hr hc _ toyPieces_linear (fun _ => rfl)] at h
  have h0 := congrFun (congrFun (congrFun h 0) ()) ()
  rw [fockK_eq hr hc, fockK_eq hr hc] at h0
  have hN := card_ne_zero' (n := fun _ : Fin 1 => 3)
  simp [rhoK, hc.assign hr, densityOf, toyPieces] at h0
  exact absurd h0 (by decide)

/-- non-trivial instance of C66: matching meshes exist, and the routine accepts them -/
example : GwOk toyPieces ⟨4, 1, .boson⟩ ⟨4, 1, .fermion⟩ (0 : ℕ) 0 := ⟨rfl, rfl, rfl, rfl, rfl⟩

end Verif.Gw
