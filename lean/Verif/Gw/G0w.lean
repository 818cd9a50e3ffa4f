import Verif.Gw.Props

/-!
# C77 - C79: real frequency GW with the spectral representation
-/

noncomputable section

namespace Verif.Gw

open Complex Verif.Parallel Verif.Fourier Verif.Bubble Verif.Lindhard

variable {d : ℕ} {n : Fin d → ℕ} [∀ i, NeZero (n i)] {o : Type*} [Fintype o] [DecidableEq o]
  {K : Type*} [AddCommGroup K]

set_option linter.unusedSectionVars false

/-- eigensystem at a momentum -/
abbrev sysAt (eig : Eig o) (mu : ℝ) (ek : K → Matrix o o ℂ) (kp : K) : (o → ℝ) × Matrix o o ℂ :=
  eig (ek kp - (mu : ℂ) • 1)

theorem sysAt_diag {eig : Eig o} (hs : EigSpec eig) (mu : ℝ) {ek : K → Matrix o o ℂ}
    (he : ∀ k, (ek k).IsHermitian) (k : K) : Diag (ek k - (mu : ℂ) • 1) (sysAt eig mu ek k) := by
  apply hs
  have h1 : ((mu : ℂ) • (1 : Matrix o o ℂ)).IsHermitian := by
    rw [Matrix.IsHermitian, Matrix.conjTranspose_smul, Matrix.conjTranspose_one]
    simp
  exact (he k).sub h1

/-! ## C77 -/

/-- explicit static part through matrix functions -/
theorem g0wStatic_eq (eig : Eig o) (mu beta : ℝ) (ek : K → Matrix o o ℂ) (pt : Lat n → K)
    {kmesh : List (Lat n)} (hc : Complete kmesh) (v : Lat n → T4 o) (kp : K) (a b : o) :
    g0wStatic eig mu beta ek pt kmesh v kp a b = -((Fintype.card (Lat n) : ℂ)⁻¹ * ∑ q, v q a a b b
      * matFun (sysAt eig mu ek (pt q + kp)) (fun x => (fermi (x * beta) : ℂ)) a b) := by
  rw [g0wStatic, hc.sum, hc.length]
  simp only [matFun_apply, Finset.mul_sum, ← Finset.sum_neg_distrib]
  refine Finset.sum_congr rfl fun q _ => Finset.sum_congr rfl fun l _ => ?_
  rw [div_eq_inv_mul]
  ring

/-- explicit dynamic part through matrix functions -/
theorem g0wDynamicAt_eq (eig : Eig o) (mu beta : ℝ) (ek : K → Matrix o o ℂ) (pt : Lat n → K)
    {kmesh : List (Lat n)} (hc : Complete kmesh) (fmesh : List ℝ) (step : ℝ) (W : ℝ → Lat n → T4 o)
    (v : Lat n → T4 o) (z : ℂ) (kp : K) (a b : o) :
    g0wDynamicAt eig mu beta ek pt kmesh fmesh step W v z kp a b
      = (step : ℂ) * ((Fintype.card (Lat n) : ℂ)⁻¹ * ∑ q, (fmesh.map fun fp => (wSpec W v fp q a b : ℂ)
        * matFun (sysAt eig mu ek (pt q + kp))
          (fun x => ((bose (fp * beta) + fermi (x * beta) : ℝ) : ℂ) / (z + fp - x)) a b).sum) := by
  rw [g0wDynamicAt, hc.sum, hc.length]
  simp only [Finset.mul_sum]
  refine Finset.sum_congr rfl fun q _ => ?_
  induction fmesh with
  | nil => simp
  | cons fp fm ih =>
    simp only [List.map_cons, List.sum_cons, Finset.sum_add_distrib, mul_add]
    rw [ih]
    congr 1
    rw [matFun_apply]
    simp only [Finset.mul_sum]
    refine Finset.sum_congr rfl fun l _ => ?_
    rw [div_eq_inv_mul _ (Fintype.card (Lat n) : ℂ)]
    ring

/-- C77: independent of the eigenvectors chosen by the diagonalisation routine. -/
theorem C77_eigenbasis (eig eig' : Eig o) (hs : EigSpec eig) (hs' : EigSpec eig') (mu beta : ℝ)
    (ek : K → Matrix o o ℂ) (he : ∀ k, (ek k).IsHermitian) (pt : Lat n → K)
    {kmesh : List (Lat n)} (hc : Complete kmesh) (fmesh : List ℝ) (step : ℝ) (W : ℝ → Lat n → T4 o)
    (v : Lat n → T4 o) (z : ℂ) (kp : K) :
    g0wStatic eig mu beta ek pt kmesh v kp = g0wStatic eig' mu beta ek pt kmesh v kp ∧
    g0wDynamicAt eig mu beta ek pt kmesh fmesh step W v z kp
      = g0wDynamicAt eig' mu beta ek pt kmesh fmesh step W v z kp := by
  have h : ∀ k f, matFun (sysAt eig mu ek k) f = matFun (sysAt eig' mu ek k) f := fun k f =>
    matFun_unique (sysAt_diag hs mu he k) (sysAt_diag hs' mu he k) f
  constructor
  · funext a b
    rw [g0wStatic_eq _ _ _ _ _ hc, g0wStatic_eq _ _ _ _ _ hc]
    simp only [h]
  · funext a b
    rw [g0wDynamicAt_eq _ _ _ _ _ hc, g0wDynamicAt_eq _ _ _ _ _ hc]
    simp only [h]

/-- C77: for density-density interactions the static part is the Fock self energy of the non-interacting density
matrix `<c†_i c_j>` (the transposed Fermi function of the Hamiltonian), on every point of the mesh. -/
theorem C77_static_is_fock {ranks : ℕ} (hr : 0 < ranks) (eig : Eig o) (mu beta : ℝ) (ek : K → Matrix o o ℂ)
    (pt : Lat n → K) (e : Lat n → Matrix o o ℂ) (hpt : ∀ q k, ek (pt q + pt k) = e (k + q))
    {kmesh : List (Lat n)} (hc : Complete kmesh) (v : Lat n → T4 o)
    (hv : ∀ q a b c d, ¬ (a = b ∧ c = d) → v q a b c d = 0) (k : Lat n) :
    g0wStatic eig mu beta ek pt kmesh v (pt k)
      = fockK ranks kmesh v (fun p i j => matFun (sys eig mu e p) (fun x => (fermi (x * beta) : ℂ)) j i) k := by
  funext a b
  rw [g0wStatic_eq _ _ _ _ _ hc, fockK_eq hr hc]
  congr 2
  refine Finset.sum_congr rfl fun q _ => ?_
  rw [Finset.sum_eq_single a, Finset.sum_eq_single b]
  · simp only [sysAt, hpt]
  · intro d _ hd
    rw [hv q a a d b (fun h => hd h.2), zero_mul]
  · simp
  · intro c _ hne
    refine Finset.sum_eq_zero fun d _ => ?_
    rw [hv q a c d b (fun h => hne h.1.symm), zero_mul]
  · simp

/-- C77: an interaction without screening gives no dynamic part. -/
theorem C77_unscreened (eig : Eig o) (mu beta : ℝ) (ek : K → Matrix o o ℂ) (pt : Lat n → K)
    {kmesh : List (Lat n)} (hc : Complete kmesh) (fmesh : List ℝ) (step : ℝ) (W : ℝ → Lat n → T4 o)
    (v : Lat n → T4 o) (hW : ∀ f ∈ fmesh, ∀ q a b, (W f q a a b b).im = (v q a a b b).im) (z : ℂ) (kp : K) (a b : o) :
    g0wDynamicAt eig mu beta ek pt kmesh fmesh step W v z kp a b = 0 := by
  rw [g0wDynamicAt_eq _ _ _ _ _ hc]
  have : ∀ q, (fmesh.map fun fp => (wSpec W v fp q a b : ℂ) * matFun (sysAt eig mu ek (pt q + kp))
          (fun x => ((bose (fp * beta) + fermi (x * beta) : ℝ) : ℂ) / (z + fp - x)) a b).sum = 0 := by
    intro q
    apply List.sum_eq_zero
    intro x hx
    obtain ⟨fp, hfp, rfl⟩ := List.mem_map.1 hx
    rw [wSpec, Complex.sub_im, hW fp hfp, sub_self]
    simp
  simp only [this, Finset.sum_const_zero, mul_zero]

/-- C77: the total is static plus dynamic part, the mesh routine agrees with the single momentum routine, and meshes
that differ are refused. -/
theorem C77_total {M : Type} [DecidableEq M] {ranks : ℕ} (hr : 0 < ranks) (eig : Eig o) (mu beta : ℝ)
    (ek : K → Matrix o o ℂ) (pt : Lat n → K) (kW ke kv : M) {kmesh : List (Lat n)} (hc : Complete kmesh)
    (fmesh : List ℝ) (hf : fmesh.Nodup) (step : ℝ) (W : ℝ → Lat n → T4 o) (v : Lat n → T4 o) (delta : ℝ) :
    (kW = ke → ke = kv → ∃ s,
      g0wSigma ranks eig mu beta ek pt kW ke kv kmesh fmesh step W v delta = some s ∧
      ∀ f ∈ fmesh, ∀ k, s f k = fun a b => g0wStatic eig mu beta ek pt kmesh v (pt k) a b
          + g0wDynamicAt eig mu beta ek pt kmesh fmesh step W v (f + delta * I) (pt k) a b) ∧
    (kW = ke → ke = kv → ∀ k, ∃ s s1,
      g0wSigma ranks eig mu beta ek pt kW ke kv kmesh fmesh step W v delta = some s ∧
      g0wSigmaAt eig mu beta ek pt kW ke kv kmesh fmesh step W v delta (pt k) = some s1 ∧
      ∀ f ∈ fmesh, s f k = s1 f) ∧
    (¬ (kW = ke ∧ ke = kv) →
      g0wSigma ranks eig mu beta ek pt kW ke kv kmesh fmesh step W v delta = none ∧
      ∀ kp, g0wSigmaAt eig mu beta ek pt kW ke kv kmesh fmesh step W v delta kp = none) := by
  have main : kW = ke → ke = kv → ∃ s,
      g0wSigma ranks eig mu beta ek pt kW ke kv kmesh fmesh step W v delta = some s ∧
      ∀ f ∈ fmesh, ∀ k, s f k = fun a b => g0wStatic eig mu beta ek pt kmesh v (pt k) a b
          + g0wDynamicAt eig mu beta ek pt kmesh fmesh step W v (f + delta * I) (pt k) a b := by
    rintro rfl rfl
    refine ⟨_, by simp only [g0wSigma, g0wStaticMesh, g0wDynamic, ne_eq, not_true_eq_false, or_self, if_false];
                  exact rfl, ?_⟩
    intro f hfm k
    let _ := Classical.decEq ℝ
    have hnd : (fmesh.product kmesh).Nodup := hf.product hc.1
    have hm : (f, k) ∈ fmesh.product kmesh := List.pair_mem_product.2 ⟨hfm, hc.2 k⟩
    rw [Util.addDynStat, C02_distributedAssign ranks hr _ hnd, if_pos hm, hc.assign hr, hc.assign hr]
    funext a b
    exact add_comm _ _
  refine ⟨main, ?_, ?_⟩
  · intro h1 h2 k
    obtain ⟨s, hs, hv⟩ := main h1 h2
    refine ⟨s, _, hs, by simp only [g0wSigmaAt, h1, h2, ne_eq, not_true_eq_false, or_self, if_false]; exact rfl, ?_⟩
    intro f hfm
    rw [hv f hfm k]
  · intro h
    constructor
    · simp only [g0wSigma, g0wStaticMesh, g0wDynamic]
      by_cases h2 : ke = kv
      · have h1 : kW ≠ ke := fun h1 => h ⟨h1, h2⟩
        simp [h1]
      · simp [h2]
    · intro kp
      simp only [g0wSigmaAt]
      rw [if_pos]
      by_cases h2 : ke = kv
      · exact Or.inr fun h1 => h ⟨h1, h2⟩
      · exact Or.inl h2

/-- C77 (finding): the Bose function is evaluated at its pole exactly if the frequency mesh contains zero, as a
symmetric mesh with an odd number of points does. -/
theorem C77_bose_pole (fmesh : List ℝ) (beta : ℝ) (hb : beta ≠ 0) : boseSingular fmesh beta ↔ (0 : ℝ) ∈ fmesh := by
  constructor
  · rintro ⟨fp, hfp, h⟩
    have : fp * beta = 0 := by
      rw [sub_eq_zero] at h
      exact Real.exp_eq_one_iff _ |>.1 h
    rcases mul_eq_zero.1 this with h0 | h0
    · rwa [h0] at hfp
    · exact absurd h0 hb
  · intro h
    exact ⟨0, h, by simp⟩

theorem C77_finite_violated : ∃ fmesh : List ℝ, fmesh = [-1, 0, 1] ∧ ∀ beta, boseSingular fmesh beta :=
  ⟨_, rfl, fun beta => ⟨0, by simp, by simp⟩⟩

/-! ## C78: analytic continuation of the imaginary time product -/

/-- bosonic propagator of a mode at energy `x ≠ 0`: its transform is `1 / (iν - x)` -/
def bosonTau (beta tau x : ℝ) : ℂ := ((-(1 + bose (x * beta)) * Real.exp (-x * tau) : ℝ) : ℂ)

theorem exp_sub_one_ne {x : ℝ} (hx : x ≠ 0) : Real.exp x - 1 ≠ 0 :=
  sub_ne_zero.2 fun h => hx ((Real.exp_eq_one_iff x).1 h)

/-- `bosonTau` is the transform of a pole -/
theorem C78_bosonTau (beta : ℝ) (hb : 0 < beta) (m : ℤ) (x : ℝ) (hx : x ≠ 0) :
    ∫ tau in (0 : ℝ)..beta, exp (matsubara .boson beta m * tau) * bosonTau beta tau x
      = 1 / (matsubara .boson beta m - x) := by
  set z := matsubara .boson beta m with hz
  have hne : z - (x : ℂ) ≠ 0 := by
    intro h0
    have hre := congrArg Complex.re h0
    have zI : z = ((2 * m * Real.pi / beta : ℝ) : ℂ) * I := by
      rw [hz, matsubara]; push_cast; ring
    rw [zI] at hre
    simp at hre
    exact hx hre
  have h1 : ∀ tau : ℝ, exp (z * tau) * bosonTau beta tau x
      = ((-(1 + bose (x * beta)) : ℝ) : ℂ) * exp ((z - x) * tau) := by
    intro tau
    rw [sub_mul, sub_eq_add_neg, exp_add, bosonTau]
    push_cast
    rw [show -(x : ℂ) * tau = -(x * tau) by ring]
    ring
  simp only [h1]
  rw [intervalIntegral.integral_const_mul, integral_exp_mul_complex hne, ← mul_div_assoc]
  congr 1
  have e3 : exp ((z - x) * beta) = ((Real.exp (-x * beta) : ℝ) : ℂ) := by
    rw [sub_mul, sub_eq_add_neg, exp_add, hz, exp_matsubara .boson beta hb m, one_mul]
    push_cast
    congr 1; ring
  rw [e3]
  simp only [ofReal_zero, mul_zero, exp_zero]
  have hxb : x * beta ≠ 0 := mul_ne_zero hx hb.ne'
  have h3 := exp_sub_one_ne hxb
  have : -(1 + bose (x * beta)) * (Real.exp (-x * beta) - 1) = 1 := by
    rw [bose, show -x * beta = -(x * beta) by ring, Real.exp_neg]
    have := Real.exp_ne_zero (x * beta)
    field_simp
    ring
  exact_mod_cast this

theorem fermion_ne (beta : ℝ) (hb : 0 < beta) (m : ℤ) (x : ℝ) : matsubara .fermion beta m - x ≠ 0 := by
  intro h0
  have him := congrArg Complex.im h0
  have zI : matsubara .fermion beta m = (((2 * m + 1) * Real.pi / beta : ℝ) : ℂ) * I := by
    rw [matsubara]; push_cast; ring
  rw [zI] at him
  simp at him
  rcases him with h | h
  · have h' : ((2 * m + 1 : ℤ) : ℝ) = 0 := by push_cast; linarith [h]
    have := Int.cast_eq_zero.1 h'
    omega
  · exact hb.ne' h

/-- one boson pole, one fermion pole: transform of `-W(τ) g(τ)` -/
theorem pole_product (beta : ℝ) (hb : 0 < beta) (m : ℤ) (x y : ℝ) (hx : x ≠ 0) :
    ∫ tau in (0 : ℝ)..beta, exp (matsubara .fermion beta m * tau) * -(bosonTau beta tau x * freeTau beta tau y)
      = -(((bose (-x * beta) + fermi (y * beta) : ℝ) : ℂ) / (matsubara .fermion beta m + (-x : ℝ) - y)) := by
  set z := matsubara .fermion beta m with hz
  have hne : z - ((x + y : ℝ) : ℂ) ≠ 0 := fermion_ne beta hb m (x + y)
  have h1 : ∀ tau : ℝ, exp (z * tau) * -(bosonTau beta tau x * freeTau beta tau y)
      = ((-((1 + bose (x * beta)) * (1 - fermi (y * beta))) : ℝ) : ℂ) * exp ((z - ((x + y : ℝ) : ℂ)) * tau) := by
    intro tau
    rw [sub_mul, sub_eq_add_neg (z * (tau : ℂ)), exp_add, bosonTau, freeTau]
    have : Real.exp (-((x + y) * tau)) = Real.exp (-x * tau) * Real.exp (-y * tau) := by
      rw [← Real.exp_add]; congr 1; ring
    have e : exp (-(((x + y : ℝ) : ℂ) * tau)) = ((Real.exp (-x * tau) * Real.exp (-y * tau) : ℝ) : ℂ) := by
      rw [← this]; push_cast; rfl
    rw [e]
    push_cast
    ring
  simp only [h1]
  rw [intervalIntegral.integral_const_mul, integral_exp_mul_complex hne, ← mul_div_assoc, ← neg_div]
  have hden : z + ((-x : ℝ) : ℂ) - y = z - ((x + y : ℝ) : ℂ) := by push_cast; ring
  rw [hden]
  congr 1
  have e3 : exp ((z - ((x + y : ℝ) : ℂ)) * beta) = -((Real.exp (-x * beta) * Real.exp (-y * beta) : ℝ) : ℂ) := by
    rw [sub_mul, sub_eq_add_neg, exp_add, hz, exp_matsubara .fermion beta hb m]
    rw [← Real.exp_add]
    push_cast
    rw [neg_one_mul]
    congr 2; ring
  rw [e3]
  simp only [ofReal_zero, mul_zero, exp_zero]
  have hxb : x * beta ≠ 0 := mul_ne_zero hx hb.ne'
  have h3 := exp_sub_one_ne hxb
  have h4 : 1 - Real.exp (x * beta) ≠ 0 := by rw [← neg_ne_zero, neg_sub]; exact h3
  have : -((1 + bose (x * beta)) * (1 - fermi (y * beta))) * (-(Real.exp (-x * beta) * Real.exp (-y * beta)) - 1)
      = -(bose (-x * beta) + fermi (y * beta)) := by
    have hbb := C20_bose (x * beta) hxb
    rw [show -x * beta = -(x * beta) by ring, show -y * beta = -(y * beta) by ring]
    have hb2 : bose (-(x * beta)) = -1 - bose (x * beta) := by linarith
    rw [hb2, C20_fermi, bose, Real.exp_neg, Real.exp_neg]
    have h5 := Real.exp_ne_zero (x * beta)
    have h6 := Real.exp_pos (y * beta)
    have h7 : Real.exp (y * beta) + 1 ≠ 0 := by positivity
    have h8 := h6.ne'
    field_simp
    ring
  exact_mod_cast this

/-- interaction in imaginary time whose spectral function is given on a finite set of frequencies -/
def wTau (beta : ℝ) (fs : Finset ℝ) (step : ℝ) (spec : ℝ → ℝ) (tau : ℝ) : ℂ :=
  ∑ f ∈ fs, (step * spec f : ℝ) * bosonTau beta tau f

/-- C78: at every fermionic Matsubara frequency the spectral formula is the transform of the imaginary time product
`-W(τ, r) G(τ, r)` used by the Matsubara routines, for a symmetric frequency set without zero and a spectral function
with the symmetry of a bosonic response. -/
theorem C78_continuation (eig : Eig o) (mu beta : ℝ) (hb : 0 < beta) (ek : K → Matrix o o ℂ)
    (pt : Lat n → K) (e : Lat n → Matrix o o ℂ) (hpt : ∀ q k, ek (pt q + pt k) = e (k + q))
    {kmesh : List (Lat n)} (hc : Complete kmesh) (fmesh : List ℝ) (hnd : fmesh.Nodup)
    (h0 : (0 : ℝ) ∉ fmesh) (hsym : ∀ f ∈ fmesh, -f ∈ fmesh) (step : ℝ) (W : ℝ → Lat n → T4 o) (v : Lat n → T4 o)
    (a b : o) (hodd : ∀ f ∈ fmesh, ∀ q, wSpec W v (-f) (-q) a b = -wSpec W v f q a b) (m : ℤ) (k : Lat n) :
    g0wDynamicAt eig mu beta ek pt kmesh fmesh step W v (matsubara .fermion beta m) (pt k) a b
      = ∫ tau in (0 : ℝ)..beta, exp (matsubara .fermion beta m * tau) *
          rToK (fun r => -(kToR (fun q => wTau beta fmesh.toFinset step (fun f => wSpec W v f q a b) tau) r
            * kToR (fun q => matFun (sys eig mu e q) (freeTau beta tau) a b) r)) k := by
  rw [g0wDynamicAt_eq _ _ _ _ _ hc]
  set z := matsubara .fermion beta m with hz
  set N := (Fintype.card (Lat n) : ℂ)⁻¹ with hN
  have hint : ∀ tau : ℝ, exp (z * tau) *
          rToK (fun r => -(kToR (fun q => wTau beta fmesh.toFinset step (fun f => wSpec W v f q a b) tau) r
            * kToR (fun q => matFun (sys eig mu e q) (freeTau beta tau) a b) r)) k
      = ∑ q, ∑ f ∈ fmesh.toFinset, ∑ l, (N * (step * wSpec W v f q a b : ℝ) * ((sys eig mu e (k - q)).2 a l
          * (sys eig mu e (k - q)).2.conjTranspose l b))
        * (exp (z * tau) * -(bosonTau beta tau f * freeTau beta tau ((sys eig mu e (k - q)).1 l))) := by
    intro tau
    rw [rToK_neg, rToK_mul, div_eq_inv_mul]
    simp only [wTau, matFun_apply, Finset.sum_mul, Finset.mul_sum, ← Finset.sum_neg_distrib, ← hN]
    refine Finset.sum_congr rfl fun q _ => ?_
    rw [Finset.sum_comm]
    refine Finset.sum_congr rfl fun f _ => Finset.sum_congr rfl fun l _ => ?_
    ring
  simp only [hint]
  have hcont : ∀ (c : ℂ) (f y : ℝ), Continuous fun tau : ℝ => c * (exp (z * tau) *
      -(bosonTau beta tau f * freeTau beta tau y)) := by
    intro c f y
    unfold bosonTau freeTau
    fun_prop
  rw [intervalIntegral.integral_finsetSum]
  swap
  · intro q _
    exact (continuous_finsetSum _ fun f _ => continuous_finsetSum _ fun l _ => hcont _ _ _).intervalIntegrable _ _
  have hf : ∀ q : Lat n, ∫ tau in (0 : ℝ)..beta, ∑ f ∈ fmesh.toFinset, ∑ l, (N * (step * wSpec W v f q a b : ℝ)
          * ((sys eig mu e (k - q)).2 a l * (sys eig mu e (k - q)).2.conjTranspose l b))
        * (exp (z * tau) * -(bosonTau beta tau f * freeTau beta tau ((sys eig mu e (k - q)).1 l)))
      = ∑ f ∈ fmesh.toFinset, -(N * (step * wSpec W v f q a b : ℝ)
        * matFun (sys eig mu e (k - q)) (fun x => ((bose (-f * beta) + fermi (x * beta) : ℝ) : ℂ)
            / (z + (-f : ℝ) - x)) a b) := by
    intro q
    rw [intervalIntegral.integral_finsetSum]
    swap
    · intro f _
      exact (continuous_finsetSum _ fun l _ => hcont _ _ _).intervalIntegrable _ _
    refine Finset.sum_congr rfl fun f hfm => ?_
    have hf0 : f ≠ 0 := by
      rintro rfl
      exact h0 (List.mem_toFinset.1 hfm)
    rw [intervalIntegral.integral_finsetSum]
    swap
    · intro l _
      exact (hcont _ _ _).intervalIntegrable _ _
    simp only [intervalIntegral.integral_const_mul, hz, pole_product beta hb m _ _ hf0]
    rw [matFun_apply, Finset.mul_sum, ← Finset.sum_neg_distrib]
    refine Finset.sum_congr rfl fun l _ => ?_
    ring
  simp only [hf]
  rw [Finset.mul_sum, Finset.mul_sum, ← Equiv.sum_comp (Equiv.neg (Lat n))]
  refine Finset.sum_congr rfl fun q _ => ?_
  simp only [Equiv.neg_apply]
  rw [← List.sum_toFinset _ hnd, Finset.mul_sum, Finset.mul_sum]
  -- substitute f → -f
  refine Finset.sum_nbij' (fun f => -f) (fun f => -f) ?_ ?_ ?_ ?_ ?_
  · intro f hfm; exact List.mem_toFinset.2 (hsym f (List.mem_toFinset.1 hfm))
  · intro f hfm; exact List.mem_toFinset.2 (hsym f (List.mem_toFinset.1 hfm))
  · intro f _; simp
  · intro f _; simp
  · intro f hfm
    have h := hodd f (List.mem_toFinset.1 hfm) (-q)
    rw [neg_neg] at h
    have e1 : k - q = k + -q := sub_eq_add_neg _ _
    simp only [sysAt, hpt, e1, neg_neg, h]
    push_cast
    ring

/-- C78: the spectral function extracted from a retarded interaction. A mode of the screened interaction at the energy
`Ω`, weight `A` and width `δ` (`W(ω) - v = A / (ω - Ω + iδ)`) gives a Lorentz curve of weight `A` centred at `Ω`. -/
theorem C78_spectrum (W : ℝ → Lat n → T4 o) (v : Lat n → T4 o) (q : Lat n) (a b : o) (A Ω δ : ℝ) (hδ : 0 < δ)
    (hW : ∀ f : ℝ, W f q a a b b - v q a a b b = A / ((f : ℂ) - Ω + δ * I)) :
    (∀ f, wSpec W v f q a b = A * (δ / Real.pi / ((f - Ω) ^ 2 + δ ^ 2))) ∧ ∫ f, wSpec W v f q a b = A := by
  have h1 : ∀ f, wSpec W v f q a b = A * (δ / Real.pi / ((f - Ω) ^ 2 + δ ^ 2)) := by
    intro f
    rw [wSpec, hW, div_eq_mul_inv (A : ℂ), Complex.im_ofReal_mul, Complex.inv_im]
    have e1 : ((f : ℂ) - Ω + δ * I).im = δ := by simp
    have e2 : Complex.normSq ((f : ℂ) - Ω + δ * I) = (f - Ω) ^ 2 + δ ^ 2 := by
      rw [Complex.normSq_apply]; simp; ring
    rw [e1, e2]
    ring
  refine ⟨h1, ?_⟩
  simp only [h1]
  rw [MeasureTheory.integral_const_mul]
  have h2 : ∀ f : ℝ, δ / Real.pi / ((f - Ω) ^ 2 + δ ^ 2)
      = (Real.pi)⁻¹ * (δ⁻¹ * (1 + (δ⁻¹ * (f - Ω)) ^ 2)⁻¹) := by
    intro f
    have h3 : (f - Ω) ^ 2 + δ ^ 2 ≠ 0 := by positivity
    have h4 : 1 + (δ⁻¹ * (f - Ω)) ^ 2 ≠ 0 := by positivity
    have hp := Real.pi_ne_zero
    have hd := hδ.ne'
    field_simp
    ring
  simp only [h2]
  rw [MeasureTheory.integral_const_mul, MeasureTheory.integral_const_mul,
    MeasureTheory.integral_sub_right_eq_self (fun f : ℝ => (1 + (δ⁻¹ * f) ^ 2)⁻¹) Ω,
    MeasureTheory.Measure.integral_comp_mul_left (fun f : ℝ => (1 + f ^ 2)⁻¹) δ⁻¹, integral_univ_inv_one_add_sq]
  rw [inv_inv, abs_of_pos hδ, smul_eq_mul]
  have hp := Real.pi_ne_zero
  field_simp

/-- an interaction as in `C78_spectrum` -/
example : ∃ (W : ℝ → L3 → T4 Unit) (v : L3 → T4 Unit), ∀ f : ℝ,
    W f 0 () () () () - v 0 () () () () = (3 : ℝ) / ((f : ℂ) - (2 : ℝ) + (1 : ℝ) * I) :=
  ⟨fun f _ _ _ _ _ => (3 : ℝ) / ((f : ℂ) - (2 : ℝ) + (1 : ℝ) * I), fun _ _ _ _ _ => 0, fun f => by simp⟩

/-- non-trivial instance of C78: spectral function odd in frequency and even in momentum -/
example : ∃ (W : ℝ → L3 → T4 Unit) (v : L3 → T4 Unit), (∀ f q a b, wSpec W v (-f) (-q) a b = -wSpec W v f q a b) ∧
    wSpec W v 1 0 () () ≠ 0 := by
  refine ⟨fun f _ _ _ _ _ => f * I, fun _ _ _ _ _ => 0, fun f q a b => ?_, ?_⟩
  · simp [wSpec]
  · simp [wSpec, Real.pi_ne_zero]

/-! ## C79: causality -/

theorem bose_add_fermi_sign (x y : ℝ) (hx : x ≠ 0) : 0 ≤ x * (bose x + fermi y) := by
  have hf := C20_fermi_bounds y
  rcases lt_or_gt_of_ne hx with h | h
  · have h1 : Real.exp x < 1 := (by simpa using Real.exp_lt_exp.2 h)
    have hp := Real.exp_pos x
    have h2 : bose x ≤ -1 := by
      rw [bose, div_le_iff_of_neg (by linarith)]
      linarith
    have : bose x + fermi y ≤ 0 := by linarith
    nlinarith
  · have h1 : 1 < Real.exp x := Real.one_lt_exp_iff.2 h
    have h2 : 0 < bose x := by
      rw [bose]
      have : 0 < Real.exp x - 1 := by linarith
      positivity
    have : 0 < bose x + fermi y := by linarith
    positivity

/-- C79: for a screened interaction with the sign of a passive medium (`ω Im(W(ω) - v) ≤ 0`), the diagonal elements of
the dynamic self energy have a non-positive imaginary part at every frequency: the broadening is never negative. -/
theorem C79_causal (eig : Eig o) (mu beta : ℝ) (hb : 0 < beta) (ek : K → Matrix o o ℂ) (pt : Lat n → K)
    {kmesh : List (Lat n)} (hc : Complete kmesh) (fmesh : List ℝ) (h0 : (0 : ℝ) ∉ fmesh) (step : ℝ) (hst : 0 ≤ step)
    (W : ℝ → Lat n → T4 o) (v : Lat n → T4 o) (a : o)
    (hW' : ∀ f ∈ fmesh, ∀ q, f * (W f q a a a a - v q a a a a).im ≤ 0)
    (f delta : ℝ) (hd : 0 < delta) (kp : K) :
    (g0wDynamicAt eig mu beta ek pt kmesh fmesh step W v (f + delta * I) kp a a).im ≤ 0 := by
  have hW : ∀ f ∈ fmesh, ∀ q, 0 ≤ f * wSpec W v f q a a := by
    intro f hf q
    have h1 := hW' f hf q
    have h2 : f * wSpec W v f q a a = -(f * (W f q a a a a - v q a a a a).im) / Real.pi := by
      rw [wSpec]; ring
    rw [h2]
    exact div_nonneg (by linarith) Real.pi_pos.le
  rw [g0wDynamicAt, hc.sum]
  simp only [Complex.im_sum]
  refine Finset.sum_nonpos fun q _ => Finset.sum_nonpos fun l _ => ?_
  set p := eig (ek (pt q + kp) - (mu : ℂ) • 1) with hp
  have himsum : ∀ L : List ℂ, (∀ x ∈ L, x.im ≤ 0) → L.sum.im ≤ 0 := by
    intro L
    induction L with
    | nil => simp
    | cons x L ih =>
      intro h
      rw [List.sum_cons, Complex.add_im]
      have := h x (by simp)
      have := ih fun y hy => h y (by simp [hy])
      linarith
  apply himsum
  intro x hx
  obtain ⟨fp, hfp, rfl⟩ := List.mem_map.1 hx
  have hfp0 : fp ≠ 0 := by rintro rfl; exact h0 hfp
  have hU : p.2 a l * p.2.conjTranspose l a = ((Complex.normSq (p.2 a l) : ℝ) : ℂ) := by
    rw [Matrix.conjTranspose_apply, Complex.star_def, Complex.mul_conj]
  rw [hU]
  have hsign : 0 ≤ wSpec W v fp q a a * (bose (fp * beta) + fermi (p.1 l * beta)) := by
    have h1 := hW fp hfp q
    have h2 := bose_add_fermi_sign (fp * beta) (p.1 l * beta) (mul_ne_zero hfp0 hb.ne')
    have h3 : 0 ≤ (fp * wSpec W v fp q a a) * (fp * beta * (bose (fp * beta) + fermi (p.1 l * beta))) :=
      mul_nonneg h1 h2
    have h4 : 0 < fp * fp * beta := by
      have := mul_self_pos.2 hfp0
      positivity
    by_contra hcon
    push Not at hcon
    have : (fp * fp * beta) * (wSpec W v fp q a a * (bose (fp * beta) + fermi (p.1 l * beta))) < 0 :=
      mul_neg_of_pos_of_neg h4 hcon
    nlinarith
  have e : ((Complex.normSq (p.2 a l) : ℝ) : ℂ) * ((wSpec W v fp q a a : ℝ)
        * ((bose (fp * beta) + fermi (p.1 l * beta) : ℝ) : ℂ) / ((f : ℂ) + delta * I + fp - p.1 l) * step
          / kmesh.length)
      = ((Complex.normSq (p.2 a l) * (wSpec W v fp q a a * (bose (fp * beta) + fermi (p.1 l * beta))) * step
          / kmesh.length : ℝ) : ℂ) * ((f : ℂ) + delta * I + fp - p.1 l)⁻¹ := by
    push_cast
    ring
  rw [e, Complex.im_ofReal_mul, Complex.inv_im]
  have hden : ((f : ℂ) + delta * I + fp - p.1 l).im = delta := by simp
  rw [hden]
  have hN : 0 ≤ Complex.normSq (p.2 a l) := Complex.normSq_nonneg _
  have h5 : 0 ≤ Complex.normSq (p.2 a l) * (wSpec W v fp q a a * (bose (fp * beta) + fermi (p.1 l * beta))) * step
          / kmesh.length := by positivity
  have h6 : -delta / Complex.normSq ((f : ℂ) + delta * I + fp - p.1 l) ≤ 0 :=
    div_nonpos_of_nonpos_of_nonneg (by linarith) (Complex.normSq_nonneg _)
  exact mul_nonpos_of_nonneg_of_nonpos h5 h6

end Verif.Gw
