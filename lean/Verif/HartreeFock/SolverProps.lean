import Verif.HartreeFock.Solver
import Verif.HfResponse.Lemmas
import Verif.HartreeFock.Props
import Mathlib.Analysis.Calculus.MeanValue
import Mathlib.Algebra.Algebra.Spectrum.Basic

/-!
# C85: the chemical potential search, C86: the reported state of the solver
-/

noncomputable section

namespace Verif.HartreeFock

open Matrix Filter Topology
open Verif.HfResponse (fermiMatrix)

variable {n : ℕ} {κ : Type*} {V : Type*} [Fintype κ]

set_option linter.unusedSectionVars false

/-! ## Specification -/

/-- particles per unit cell in thermal equilibrium with the one-body Hamiltonian `h` at chemical potential
`mu`; the Fermi function of a matrix is `(exp(beta (h - mu)) + 1)⁻¹` -/
def filling (beta : ℝ) (h : κ → Matrix (Fin n) (Fin n) ℂ) (mu : ℝ) : ℝ :=
  (∑ k, (Matrix.trace (fermiMatrix beta (h k - (mu : ℂ) • 1))).re) / (Fintype.card κ : ℝ)

/-- thermal density matrix per unit cell -/
def thermalDensity (beta : ℝ) (h : κ → Matrix (Fin n) (Fin n) ℂ) (mu : ℝ) : Matrix (Fin n) (Fin n) ℂ :=
  (Fintype.card κ : ℂ)⁻¹ • ∑ k, fermiMatrix beta (h k - (mu : ℂ) • 1)

/-! ## Lemmas -/

theorem fermiMatrix_shift (beta mu : ℝ) {h : Matrix (Fin n) (Fin n) ℂ}
    {p : (Fin n → ℝ) × Matrix (Fin n) (Fin n) ℂ} (hp : Lindhard.Diag h p) :
    fermiMatrix beta (h - (mu : ℂ) • 1) = Lindhard.matFun p fun x => (fermi beta (x - mu) : ℂ) := by
  have hq : Lindhard.Diag (h - (mu : ℂ) • 1) (fun i => p.1 i - mu, p.2) := by
    refine ⟨hp.1, hp.2.1, ?_⟩
    have h1 : diagonal (fun i => ((p.1 i - mu : ℝ) : ℂ))
        = diagonal (fun i => (p.1 i : ℂ)) - (mu : ℂ) • (1 : Matrix (Fin n) (Fin n) ℂ) := by
      rw [Matrix.smul_one_eq_diagonal, Matrix.diagonal_sub]
      congr 1
      funext i
      push_cast
      rfl
    show h - (mu : ℂ) • 1 = p.2 * diagonal (fun i => ((p.1 i - mu : ℝ) : ℂ)) * p.2ᴴ
    rw [h1, mul_sub, sub_mul, ← hp.2.2, Matrix.mul_smul, mul_one, Matrix.smul_mul, hp.2.1]
  rw [HfResponse.fermiMatrix_of_diag beta hq]
  rfl

theorem trace_matFun {h : Matrix (Fin n) (Fin n) ℂ} {p : (Fin n → ℝ) × Matrix (Fin n) (Fin n) ℂ}
    (hp : Lindhard.Diag h p) (f : ℝ → ℂ) : Matrix.trace (Lindhard.matFun p f) = ∑ i, f (p.1 i) := by
  rw [Lindhard.matFun, Matrix.trace_mul_comm, ← Matrix.mul_assoc, hp.1, one_mul, Matrix.trace_diagonal]

theorem filling_eq (beta : ℝ) {eig : Lindhard.Eig (Fin n)} (hs : Lindhard.EigSpec eig)
    (h : κ → Matrix (Fin n) (Fin n) ℂ) (hh : ∀ k, (h k).IsHermitian) (mu : ℝ) :
    filling beta h mu = (∑ k, ∑ b, fermi beta ((eig (h k)).1 b - mu)) / (Fintype.card κ : ℝ) := by
  unfold filling
  congr 1
  refine Finset.sum_congr rfl fun k _ => ?_
  rw [fermiMatrix_shift beta mu (hs _ (hh k)), trace_matFun (hs _ (hh k)), Complex.re_sum]
  simp only [Complex.ofReal_re]

theorem momentumDensity_eq (beta mu : ℝ) {eig : Lindhard.Eig (Fin n)} (hs : Lindhard.EigSpec eig)
    (h : κ → Matrix (Fin n) (Fin n) ℂ) (hh : ∀ k, (h k).IsHermitian) :
    momentumDensity beta mu (fun k => (eig (h k)).1) (fun k => (eig (h k)).2)
      = fun k => fermiMatrix beta (h k - (mu : ℂ) • 1) := by
  funext k
  rw [fermiMatrix_shift beta mu (hs _ (hh k))]
  ext a b
  rw [Lindhard.matFun_apply]
  rfl

theorem density_eq (beta mu : ℝ) {eig : Lindhard.Eig (Fin n)} (hs : Lindhard.EigSpec eig)
    (h : κ → Matrix (Fin n) (Fin n) ℂ) (hh : ∀ k, (h k).IsHermitian) :
    density (momentumDensity beta mu (fun k => (eig (h k)).1) (fun k => (eig (h k)).2))
      = thermalDensity beta h mu := by
  rw [momentumDensity_eq beta mu hs h hh]
  ext a b
  simp only [density, thermalDensity, Matrix.smul_apply, Matrix.sum_apply, smul_eq_mul]
  rw [div_eq_inv_mul]

theorem trace_thermalDensity (beta mu : ℝ) (h : κ → Matrix (Fin n) (Fin n) ℂ) (hh : ∀ k, (h k).IsHermitian) :
    Matrix.trace (thermalDensity beta h mu) = (filling beta h mu : ℂ) := by
  obtain ⟨eig, hs⟩ := Lindhard.exists_eigSpec (o := Fin n)
  rw [filling_eq beta hs h hh, ← density_eq beta mu hs h hh,
    C75_number beta mu _ _ fun k => (hs _ (hh k)).1]

theorem fermi_hasDerivAt (beta x : ℝ) :
    HasDerivAt (fermi beta) (-(beta * Real.exp (beta * x)) / (Real.exp (beta * x) + 1) ^ 2) x := by
  have h1 : HasDerivAt (fun y : ℝ => Real.exp (beta * y) + 1) (Real.exp (beta * x) * beta) x := by
    have := ((hasDerivAt_id x).const_mul beta).exp.add_const 1
    exact this.congr_deriv (by simp)
  have h2 := h1.inv (by positivity)
  have h3 : fermi beta = fun y : ℝ => (Real.exp (beta * y) + 1)⁻¹ := by
    funext y; rw [fermi, one_div]
  rw [h3]
  exact h2.congr_deriv (by ring)

theorem fermi_continuous (beta : ℝ) : Continuous (fermi beta) :=
  continuous_iff_continuousAt.2 fun x => (fermi_hasDerivAt beta x).continuousAt

theorem fermi_lipschitz (beta : ℝ) (hb : 0 ≤ beta) (x y : ℝ) :
    |fermi beta x - fermi beta y| ≤ beta / 4 * |x - y| := by
  have h := Convex.norm_image_sub_le_of_norm_hasDerivWithin_le (f := fermi beta) (s := Set.univ)
    (f' := fun x => -(beta * Real.exp (beta * x)) / (Real.exp (beta * x) + 1) ^ 2) (C := beta / 4)
    (fun x _ => (fermi_hasDerivAt beta x).hasDerivWithinAt) (fun x _ => ?_) convex_univ
    (Set.mem_univ y) (Set.mem_univ x)
  · simpa only [Real.norm_eq_abs] using h
  · have hE := Real.exp_pos (beta * x)
    rw [Real.norm_eq_abs, abs_div, abs_neg, abs_of_nonneg (by positivity), abs_of_pos (by positivity),
      div_le_div_iff₀ (by positivity) (by norm_num)]
    nlinarith [mul_nonneg hb (sq_nonneg (Real.exp (beta * x) - 1))]

theorem fermi_strictAnti (beta : ℝ) (hb : 0 < beta) : StrictAnti (fermi beta) := by
  intro x y hxy
  unfold fermi
  refine one_div_lt_one_div_of_lt (by positivity) ?_
  have := Real.exp_lt_exp.2 (mul_lt_mul_of_pos_left hxy hb)
  linarith

theorem filling_continuous (beta : ℝ) (h : κ → Matrix (Fin n) (Fin n) ℂ) (hh : ∀ k, (h k).IsHermitian) :
    Continuous (filling beta h) := by
  obtain ⟨eig, hs⟩ := Lindhard.exists_eigSpec (o := Fin n)
  have : filling beta h = fun mu => (∑ k, ∑ b, fermi beta ((eig (h k)).1 b - mu)) / (Fintype.card κ : ℝ) :=
    funext fun mu => filling_eq beta hs h hh mu
  rw [this]
  refine Continuous.div_const (continuous_finsetSum _ fun k _ => continuous_finsetSum _ fun b _ => ?_) _
  exact (fermi_continuous beta).comp (continuous_const.sub continuous_id)

theorem filling_lipschitz [Nonempty κ] (beta : ℝ) (hb : 0 ≤ beta) (h : κ → Matrix (Fin n) (Fin n) ℂ)
    (hh : ∀ k, (h k).IsHermitian) (x y : ℝ) :
    |filling beta h x - filling beta h y| ≤ n * beta / 4 * |x - y| := by
  obtain ⟨eig, hs⟩ := Lindhard.exists_eigSpec (o := Fin n)
  have hK : (0 : ℝ) < Fintype.card κ := by exact_mod_cast Fintype.card_pos
  rw [filling_eq beta hs h hh, filling_eq beta hs h hh, ← sub_div, abs_div, abs_of_pos hK, div_le_iff₀ hK,
    ← Finset.sum_sub_distrib]
  calc |∑ k, ((∑ b, fermi beta ((eig (h k)).1 b - x)) - ∑ b, fermi beta ((eig (h k)).1 b - y))|
      ≤ ∑ k : κ, |(∑ b, fermi beta ((eig (h k)).1 b - x)) - ∑ b, fermi beta ((eig (h k)).1 b - y)| :=
        Finset.abs_sum_le_sum_abs _ _
    _ ≤ ∑ _k : κ, n * beta / 4 * |x - y| := by
        refine Finset.sum_le_sum fun k _ => ?_
        rw [← Finset.sum_sub_distrib]
        refine (Finset.abs_sum_le_sum_abs _ _).trans ?_
        calc ∑ b, |fermi beta ((eig (h k)).1 b - x) - fermi beta ((eig (h k)).1 b - y)|
            ≤ ∑ _b : Fin n, beta / 4 * |x - y| := by
              refine Finset.sum_le_sum fun b _ => (fermi_lipschitz beta hb _ _).trans ?_
              rw [sub_sub_sub_cancel_left, abs_sub_comm]
          _ = n * beta / 4 * |x - y| := by
              rw [Finset.sum_const, Finset.card_univ, Fintype.card_fin, nsmul_eq_mul]; ring
    _ = n * beta / 4 * |x - y| * Fintype.card κ := by
        rw [Finset.sum_const, Finset.card_univ, nsmul_eq_mul]; ring

/-! ## C85 -/

/-- C85: the filling grows strictly with the chemical potential, so a filling determines it. -/
theorem C85_unique [Nonempty κ] [NeZero n] (beta : ℝ) (hb : 0 < beta) (h : κ → Matrix (Fin n) (Fin n) ℂ)
    (hh : ∀ k, (h k).IsHermitian) : StrictMono (filling beta h) := by
  obtain ⟨eig, hs⟩ := Lindhard.exists_eigSpec (o := Fin n)
  intro x y hxy
  have hK : (0 : ℝ) < Fintype.card κ := by exact_mod_cast Fintype.card_pos
  rw [filling_eq beta hs h hh, filling_eq beta hs h hh]
  refine div_lt_div_of_pos_right ?_ hK
  have hlt : ∀ k b, fermi beta ((eig (h k)).1 b - x) < fermi beta ((eig (h k)).1 b - y) :=
    fun k b => fermi_strictAnti beta hb (by linarith)
  refine Finset.sum_lt_sum_of_nonempty Finset.univ_nonempty fun k _ => ?_
  exact Finset.sum_lt_sum_of_nonempty Finset.univ_nonempty fun b _ => hlt k b

theorem fermi_tendsto_bot (beta : ℝ) (hb : 0 < beta) (e : ℝ) :
    Tendsto (fun mu => fermi beta (e - mu)) atBot (𝓝 0) := by
  have h1 : Tendsto (fun mu : ℝ => Real.exp (beta * (e - mu)) + 1) atBot atTop := by
    refine tendsto_atTop_add_const_right _ _ (Real.tendsto_exp_atTop.comp ?_)
    refine Tendsto.const_mul_atTop hb ?_
    have : (fun mu : ℝ => e - mu) = fun mu => -mu + e := by funext; ring
    show Tendsto (fun mu : ℝ => e - mu) _ _
    rw [this]
    exact tendsto_atTop_add_const_right _ _ tendsto_neg_atBot_atTop
  have h2 := h1.inv_tendsto_atTop
  refine h2.congr fun mu => ?_
  simp [fermi]

theorem fermi_tendsto_top (beta : ℝ) (hb : 0 < beta) (e : ℝ) :
    Tendsto (fun mu => fermi beta (e - mu)) atTop (𝓝 1) := by
  have h1 : Tendsto (fun mu : ℝ => Real.exp (beta * (e - mu)) + 1) atTop (𝓝 (0 + 1)) := by
    refine Tendsto.add_const 1 (Real.tendsto_exp_atBot.comp ?_)
    refine Tendsto.const_mul_atBot hb ?_
    have : (fun mu : ℝ => e - mu) = fun mu => -mu + e := by funext; ring
    show Tendsto (fun mu : ℝ => e - mu) _ _
    rw [this]
    exact tendsto_atBot_add_const_right _ _ tendsto_neg_atTop_atBot
  have h2 := h1.inv₀ (by norm_num)
  rw [zero_add, inv_one] at h2
  refine h2.congr fun mu => ?_
  simp [fermi]

/-- C85: every filling between empty and full has exactly one chemical potential. -/
theorem C85_exists [Nonempty κ] [NeZero n] (beta : ℝ) (hb : 0 < beta) (h : κ → Matrix (Fin n) (Fin n) ℂ)
    (hh : ∀ k, (h k).IsHermitian) (N : ℝ) (h0 : 0 < N) (h1 : N < n) : ∃! mu, filling beta h mu = N := by
  obtain ⟨eig, hs⟩ := Lindhard.exists_eigSpec (o := Fin n)
  have hfun : filling beta h = fun mu => (∑ k, ∑ b, fermi beta ((eig (h k)).1 b - mu)) / (Fintype.card κ : ℝ) :=
    funext fun mu => filling_eq beta hs h hh mu
  have hbot : Tendsto (filling beta h) atBot (𝓝 0) := by
    rw [hfun]
    have := (tendsto_finsetSum (Finset.univ : Finset κ) fun k _ =>
      tendsto_finsetSum (Finset.univ : Finset (Fin n)) fun b _ =>
        fermi_tendsto_bot beta hb ((eig (h k)).1 b)).div_const (Fintype.card κ : ℝ)
    simpa using this
  have htop : Tendsto (filling beta h) atTop (𝓝 n) := by
    rw [hfun]
    have := (tendsto_finsetSum (Finset.univ : Finset κ) fun k _ =>
      tendsto_finsetSum (Finset.univ : Finset (Fin n)) fun b _ =>
        fermi_tendsto_top beta hb ((eig (h k)).1 b)).div_const (Fintype.card κ : ℝ)
    have hK : (Fintype.card κ : ℝ) ≠ 0 := by exact_mod_cast Fintype.card_ne_zero
    simpa [hK] using this
  obtain ⟨a, ha⟩ := (hbot.eventually_lt_const h0).exists
  obtain ⟨b, hb'⟩ := (htop.eventually_const_lt h1).exists
  have hmem : N ∈ Set.uIcc (filling beta h a) (filling beta h b) :=
    Set.mem_uIcc.2 (Or.inl ⟨ha.le, hb'.le⟩)
  obtain ⟨mu, -, hmu⟩ := intermediate_value_uIcc (filling_continuous beta h hh).continuousOn hmem
  exact ⟨mu, hmu, fun y hy => (C85_unique beta hb h hh).injective (hy.trans hmu.symm)⟩

theorem target_eq (p : Params n κ V) (hs : Lindhard.EigSpec p.eigv) (s : State n κ)
    (hh : ∀ k, (s.ekMF k).IsHermitian) (N mu : ℝ) :
    targetFunction p s N mu = filling p.beta s.ekMF mu - N := by
  rw [filling_eq p.beta hs _ hh]; rfl

theorem updateMu_brentq [Nonempty κ] [NeZero n] (p : Params n κ V) (s : State n κ) (N : ℝ) (mu0 : Option ℝ) :
    ∃ lo hi, updateMu p s N mu0 = match p.brentq (targetFunction p s N) lo hi with
      | .error e => .error e
      | .ok mu => .ok { s with mu := mu } := ⟨_, _, rfl⟩

/-- the requirements on the root finder can be met, even exactly -/
theorem exists_brent (xtol rtol : ℝ) (hx : 0 ≤ xtol) (hr : 0 ≤ rtol) : ∃ brentq, BrentSpec xtol rtol brentq := by
  classical
  refine ⟨fun f a b => if 0 < f a * f b then .error "ValueError" else
    if h : ∃ x ∈ Set.uIcc a b, f x = 0 then .ok h.choose else .ok a, ?_, ?_⟩
  · intro f a b h
    simp [h]
  · intro f a b hf h
    have hz : ∃ x ∈ Set.uIcc a b, f x = 0 := by
      have hmem : (0 : ℝ) ∈ Set.uIcc (f a) (f b) := by
        rw [Set.mem_uIcc]
        rcases mul_nonpos_iff.1 h with ⟨h1, h2⟩ | ⟨h1, h2⟩
        · exact Or.inr ⟨h2, h1⟩
        · exact Or.inl ⟨h1, h2⟩
      obtain ⟨x, hx, h0⟩ := intermediate_value_uIcc hf.continuousOn hmem
      exact ⟨x, hx, h0⟩
    refine ⟨hz.choose, ?_, hz.choose, hz.choose_spec.1, hz.choose_spec.2, ?_⟩
    · simp only [not_lt.2 h, if_false]
      rw [dif_pos hz]
    · rw [sub_self, abs_zero]
      positivity

/-- C85: when the search succeeds only the chemical potential changes, and the filling of the mean field
bands is the requested one up to the tolerance of the root finder. -/
theorem C85_filling [Nonempty κ] [NeZero n] (p : Params n κ V) (hb : 0 ≤ p.beta)
    (hs : Lindhard.EigSpec p.eigv) (xtol rtol : ℝ) (hbr : BrentSpec xtol rtol p.brentq) (s s' : State n κ)
    (hh : ∀ k, (s.ekMF k).IsHermitian) (N : ℝ) (mu0 : Option ℝ) (h : updateMu p s N mu0 = .ok s') :
    s' = { s with mu := s'.mu } ∧
    |filling p.beta s.ekMF s'.mu - N| ≤ n * p.beta / 4 * (xtol + rtol * |s'.mu|) := by
  obtain ⟨lo, hi, hu⟩ := updateMu_brentq p s N mu0
  rw [hu] at h
  have hcont : Continuous (targetFunction p s N) := by
    have : targetFunction p s N = fun mu => filling p.beta s.ekMF mu - N :=
      funext fun mu => target_eq p hs s hh N mu
    rw [this]
    exact (filling_continuous _ _ hh).sub continuous_const
  by_cases hsign : 0 < targetFunction p s N lo * targetFunction p s N hi
  · rw [hbr.refuses _ _ _ hsign] at h
    cases h
  · obtain ⟨r, hr, x, -, hx0, hx⟩ := hbr.finds _ _ _ hcont (not_lt.1 hsign)
    rw [hr] at h
    obtain rfl := Except.ok.inj h
    refine ⟨rfl, ?_⟩
    have hN : N = filling p.beta s.ekMF x := by
      rw [target_eq p hs s hh] at hx0
      linarith
    rw [hN]
    refine (filling_lipschitz p.beta hb _ hh r x).trans ?_
    exact mul_le_mul_of_nonneg_left hx (by positivity)

/-- C85: with a search range given by the user a filling is accepted exactly if it lies between the fillings
at the ends of the range. -/
theorem C85_range [Nonempty κ] [NeZero n] (p : Params n κ V)
    (hs : Lindhard.EigSpec p.eigv) (xtol rtol : ℝ) (hbr : BrentSpec xtol rtol p.brentq) (s : State n κ)
    (hh : ∀ k, (s.ekMF k).IsHermitian) (N : ℝ) (mu0 : Option ℝ) (lo hi : ℝ) (hlo : p.muMin = some lo)
    (hhi : p.muMax = some hi) :
    (∃ s', updateMu p s N mu0 = .ok s')
      ↔ (filling p.beta s.ekMF lo - N) * (filling p.beta s.ekMF hi - N) ≤ 0 := by
  unfold updateMu
  dsimp only
  rw [hlo, hhi]
  dsimp only
  have hcont : Continuous (targetFunction p s N) := by
    have : targetFunction p s N = fun mu => filling p.beta s.ekMF mu - N :=
      funext fun mu => target_eq p hs s hh N mu
    rw [this]
    exact (filling_continuous _ _ hh).sub continuous_const
  rw [← target_eq p hs s hh, ← target_eq p hs s hh]
  constructor
  · rintro ⟨s', h⟩
    by_contra hc
    rw [hbr.refuses _ _ _ (not_le.1 hc)] at h
    cases h
  · intro h
    obtain ⟨r, hr, -⟩ := hbr.finds _ _ _ hcont h
    rw [hr]
    exact ⟨_, rfl⟩

theorem spectrum_of_diag {h : Matrix (Fin n) (Fin n) ℂ} {p : (Fin n → ℝ) × Matrix (Fin n) (Fin n) ℂ}
    (hp : Lindhard.Diag h p) : spectrum ℂ h = Set.range fun i => (p.1 i : ℂ) := by
  let u : (Matrix (Fin n) (Fin n) ℂ)ˣ := ⟨p.2, p.2ᴴ, hp.2.1, hp.1⟩
  have h1 : h = u * diagonal (fun i => (p.1 i : ℂ)) * ((u⁻¹ : (Matrix (Fin n) (Fin n) ℂ)ˣ) :
      Matrix (Fin n) (Fin n) ℂ) := hp.2.2
  rw [h1, spectrum.units_conjugate]
  ext x
  rw [spectrum.mem_iff]
  have h2 : algebraMap ℂ (Matrix (Fin n) (Fin n) ℂ) x - diagonal (fun i => (p.1 i : ℂ))
      = diagonal fun i => x - (p.1 i : ℂ) := by
    rw [Matrix.algebraMap_eq_diagonal, Matrix.diagonal_sub]
    rfl
  rw [h2, Matrix.isUnit_iff_isUnit_det, Matrix.det_diagonal, isUnit_iff_ne_zero, not_not,
    Finset.prod_eq_zero_iff]
  simp only [Finset.mem_univ, true_and, sub_eq_zero, Set.mem_range]
  exact ⟨fun ⟨i, h⟩ => ⟨i, h.symm⟩, fun ⟨i, h⟩ => ⟨i, h.symm⟩⟩

/-- C85: without a range given by the user the search runs from the bottom to the top of the mean field bands:
a filling is accepted exactly if it lies between the fillings with the chemical potential there. -/
theorem C85_default_range [Nonempty κ] [NeZero n] (p : Params n κ V)
    (hs : Lindhard.EigSpec p.eigv) (xtol rtol : ℝ) (hbr : BrentSpec xtol rtol p.brentq) (s : State n κ)
    (hh : ∀ k, (s.ekMF k).IsHermitian) (N : ℝ) (mu0 : Option ℝ) (hlo : p.muMin = none) (hhi : p.muMax = none)
    (lo hi : ℝ) (hl : IsLeast {x : ℝ | ∃ k, (x : ℂ) ∈ spectrum ℂ (s.ekMF k)} lo)
    (hg : IsGreatest {x : ℝ | ∃ k, (x : ℂ) ∈ spectrum ℂ (s.ekMF k)} hi) :
    (∃ s', updateMu p s N mu0 = .ok s')
      ↔ (filling p.beta s.ekMF lo - N) * (filling p.beta s.ekMF hi - N) ≤ 0 := by
  have hmem : ∀ x : ℝ, (∃ k, (x : ℂ) ∈ spectrum ℂ (s.ekMF k)) ↔ ∃ k b, (p.eigv (s.ekMF k)).1 b = x := by
    intro x
    refine exists_congr fun k => ?_
    rw [spectrum_of_diag (hs _ (hh k))]
    simp only [Set.mem_range, Complex.ofReal_inj]
  have e1 : eMin p s = lo := by
    refine le_antisymm ?_ ?_
    · obtain ⟨k, b, hb⟩ := (hmem lo).1 hl.1
      rw [← hb]
      exact Finset.inf'_le (fun x : κ × Fin n => (p.eigv (s.ekMF x.1)).1 x.2) (Finset.mem_univ (k, b))
    · refine Finset.le_inf' _ _ fun x _ => hl.2 ((hmem _).2 ⟨x.1, x.2, rfl⟩)
  have e2 : eMax p s = hi := by
    refine le_antisymm ?_ ?_
    · refine Finset.sup'_le _ _ fun x _ => hg.2 ((hmem _).2 ⟨x.1, x.2, rfl⟩)
    · obtain ⟨k, b, hb⟩ := (hmem hi).1 hg.1
      rw [← hb]
      exact Finset.le_sup' (fun x : κ × Fin n => (p.eigv (s.ekMF x.1)).1 x.2) (Finset.mem_univ (k, b))
  have key : updateMu p s N mu0 = updateMu { p with muMin := some lo, muMax := some hi } s N mu0 := by
    unfold updateMu
    simp only [hlo, hhi, e1, e2]
    rfl
  rw [key]
  exact C85_range { p with muMin := some lo, muMax := some hi } hs xtol rtol hbr s hh N mu0 lo hi rfl rfl

theorem flat_range [Nonempty κ] [NeZero n] (p : Params n κ V) (hs : Lindhard.EigSpec p.eigv) (s : State n κ)
    (e0 : ℝ) (hflat : ∀ k, s.ekMF k = (e0 : ℂ) • 1) :
    (∀ k, (s.ekMF k).IsHermitian) ∧ eMin p s = e0 ∧ eMax p s = e0 ∧
    ∀ N, targetFunction p s N e0 = n / 2 - N := by
  have hherm : ∀ k, (s.ekMF k).IsHermitian := by
    intro k
    rw [hflat k]
    simp [Matrix.IsHermitian, Matrix.conjTranspose_smul]
  have hev : ∀ k b, (p.eigv (s.ekMF k)).1 b = e0 := by
    intro k b
    have hsp := spectrum_of_diag (hs _ (hherm k))
    have hin : (((p.eigv (s.ekMF k)).1 b : ℝ) : ℂ) ∈ spectrum ℂ (s.ekMF k) := by
      rw [hsp]; exact ⟨b, rfl⟩
    have hsc : spectrum ℂ (s.ekMF k) = {(e0 : ℂ)} := by
      rw [hflat k, ← Algebra.algebraMap_eq_smul_one, spectrum.scalar_eq]
    rw [hsc, Set.mem_singleton_iff] at hin
    exact_mod_cast hin
  refine ⟨hherm, ?_, ?_, fun N => ?_⟩
  · unfold eMin
    simp only [hev]
    exact Finset.inf'_const _ _
  · unfold eMax
    simp only [hev]
    exact Finset.sup'_const _ _
  · unfold targetFunction
    have hK : (Fintype.card κ : ℝ) ≠ 0 := by exact_mod_cast Fintype.card_ne_zero
    simp only [hev, sub_self, fermi, mul_zero, Real.exp_zero, Finset.sum_const, Finset.card_univ,
      Fintype.card_fin, nsmul_eq_mul]
    field_simp
    ring

/-- C85 is violated: for bands without dispersion (all levels at one energy) every filling other than half
filling is refused without a range given by the user, although it has a chemical potential. -/
theorem C85_flat_violated [Nonempty κ] [NeZero n] (p : Params n κ V) (hb : 0 < p.beta)
    (hs : Lindhard.EigSpec p.eigv) (xtol rtol : ℝ) (hbr : BrentSpec xtol rtol p.brentq) (s : State n κ)
    (e0 : ℝ) (hflat : ∀ k, s.ekMF k = (e0 : ℂ) • 1) (hlo : p.muMin = none) (hhi : p.muMax = none)
    (N : ℝ) (h0 : 0 < N) (h1 : N < n) (hhalf : N ≠ n / 2) (mu0 : Option ℝ) :
    updateMu p s N mu0 = .error "ValueError" ∧ ∃ mu, filling p.beta s.ekMF mu = N := by
  obtain ⟨hherm, e1, e2, ht⟩ := flat_range p hs s e0 hflat
  refine ⟨?_, (C85_exists p.beta hb s.ekMF hherm N h0 h1).exists⟩
  unfold updateMu
  dsimp only
  rw [hlo, hhi]
  dsimp only
  rw [e1, e2, hbr.refuses _ _ _ ?_]
  rw [ht]
  have : (n : ℝ) / 2 - N ≠ 0 := sub_ne_zero.2 fun h => hhalf h.symm
  exact mul_self_pos.2 this

/-- half filled bands without dispersion are accepted -/
theorem updateMu_flat [Nonempty κ] [NeZero n] (p : Params n κ V)
    (hs : Lindhard.EigSpec p.eigv) (hbr : BrentSpec 0 0 p.brentq) (s : State n κ)
    (e0 : ℝ) (hflat : ∀ k, s.ekMF k = (e0 : ℂ) • 1) (hlo : p.muMin = none) (hhi : p.muMax = none)
    (mu0 : Option ℝ) : updateMu p s (n / 2) mu0 = .ok { s with mu := e0 } := by
  obtain ⟨hherm, e1, e2, ht⟩ := flat_range p hs s e0 hflat
  have hcont : Continuous (targetFunction p s (n / 2)) := by
    have : targetFunction p s (n / 2) = fun mu => filling p.beta s.ekMF mu - n / 2 :=
      funext fun mu => target_eq p hs s hherm _ mu
    rw [this]
    exact (filling_continuous _ _ hherm).sub continuous_const
  obtain ⟨r, hr, x, hx, -, hrx⟩ := hbr.finds _ e0 e0 hcont (by rw [ht]; simp)
  rw [Set.uIcc_self, Set.mem_singleton_iff] at hx
  have : r = e0 := by
    rw [zero_mul, add_zero, hx] at hrx
    exact sub_eq_zero.1 (abs_nonpos_iff.1 hrx)
  subst this
  unfold updateMu
  dsimp only
  rw [hlo, hhi]
  dsimp only
  rw [e1, e2, hr]

/-- C85: the initial chemical potential has no influence on the starting point of the drivers. -/
theorem C85_mu0_ignored [Nonempty κ] [NeZero n] (p : Params n κ V) (s : State n κ) (N : ℝ)
    (M0 : Option (Matrix (Fin n) (Fin n) ℂ)) (m m' : ℝ) :
    solveSetup p s N M0 (some m) = solveSetup p s N M0 (some m') := by
  rfl

end Verif.HartreeFock
