import Verif.Dlr.Nodes
import Verif.Parallel.Props

/-!
# C110: transforms on DLR meshes
-/

set_option linter.unusedSectionVars false

noncomputable section

namespace Verif.Dlr

open Complex Matrix MeasureTheory Verif.Parallel Verif.Fourier Verif.Lindhard Verif.Eliashberg Verif.Bubble

variable {ι : Type} [Fintype ι] [DecidableEq ι] (M : Mesh ι)

/-- **C110.**  Whenever poles and nodes are pairwise different (and the pole zero comes with the bosonic frequency zero), all
kernel matrices are invertible, so that `make_gf_dlr` has exactly one answer, for every choice of poles and nodes. -/
theorem C110_solvable (hM : M.Proper) :
    (∀ y : ι → ℂ, ∃! c : ι → ℂ, ∀ j, M.evalTau c (M.tau j) = y j) ∧
      ∀ s, ∀ y : ι → ℂ, ∃! c : ι → ℂ, ∀ j, M.evalFreq s c (M.nu s j) = y j := by
  constructor
  · intro y
    refine ⟨M.fitTau y, evalTau_fit M (kTau_isUnit hM) y, fun c hc => ?_⟩
    rw [← fitTau_eval M (kTau_isUnit hM) c]
    congr 1
    exact funext hc
  · intro s y
    refine ⟨M.fitFreq s y, evalFreq_fit M s (kFreq_isUnit hM s) y, fun c hc => ?_⟩
    rw [← fitFreq_eval M s (kFreq_isUnit hM s) c]
    congr 1
    exact funext hc

/-- a mesh with two poles that meets the hypothesis -/
def twoPoles : Mesh (Fin 2) where
  beta := 1
  omega := ![0, 1]
  tau := ![0, 1 / 2]
  nu := fun _ => ![0, 1]

theorem twoPoles_proper : twoPoles.Proper where
  beta_pos := one_pos
  omega := by
    intro a b h
    fin_cases a <;> fin_cases b <;> simp_all [twoPoles]
  tau := by
    intro a b h
    fin_cases a <;> fin_cases b <;> simp_all [twoPoles]
  nu := by
    intro s a b h
    fin_cases a <;> fin_cases b <;> simp_all [twoPoles]
  zero := fun _ => ⟨0, rfl⟩

/-- **C110.**  The condition on the pole zero is needed: without the bosonic frequency zero the contribution of this pole
can not be seen at the bosonic nodes. -/
theorem C110_zero_mode (s : ι → ℂ) (l : ι) (hl : M.omega l = 0) (h : ∀ j, M.nu .boson j ≠ 0) (x : ℂ) (j : ι) :
    M.evalFreq .boson (fun m => if m = l then s m + x else s m) (M.nu .boson j) = M.evalFreq .boson s (M.nu .boson j) := by
  unfold Mesh.evalFreq
  refine Finset.sum_congr rfl fun m _ => ?_
  by_cases hm : m = l
  · subst hm
    have : kernelFreq .boson M.beta (M.omega m) (M.nu .boson j) = 0 := by
      simp only [kernelFreq]
      rw [if_neg (fun h' => h j h'.1), hl, odd_weight_zero, ofReal_zero, zero_div]
    rw [this, mul_zero, mul_zero]
  · simp only [if_neg hm]

/-- **C110.**  Frequency → time → frequency gives back the values, whatever they are. -/
theorem C110_freq_time_freq (s : Stat) (hM : M.Proper) (y : ι → ℂ) :
    M.toFreq s (M.toTau s y) = y := by
  funext j
  unfold Mesh.toFreq Mesh.toTau
  rw [fitTau_eval M (kTau_isUnit hM), evalFreq_fit M s (kFreq_isUnit hM s)]

/-- **C110.**  Time → frequency → time gives back the values, whatever they are. -/
theorem C110_time_freq_time (s : Stat) (hM : M.Proper) (y : ι → ℂ) :
    M.toTau s (M.toFreq s y) = y := by
  funext j
  unfold Mesh.toFreq Mesh.toTau
  rw [fitFreq_eval M s (kFreq_isUnit hM s), evalTau_fit M (kTau_isUnit hM)]

section Lattice

variable {R T : Type*} [DecidableEq R]

/-- **C110.**  The lattice routines on any number of ranks apply the transform at every lattice vector and matrix
element. -/
theorem C110_lattice (s : Stat) {ranks : ℕ} (hr : 0 < ranks) {rmesh : List R} (hn : rmesh.Nodup) (hall : ∀ r, r ∈ rmesh)
    (g : ι → R → T → ℂ) (j : ι) (r : R) (x : T) :
    M.wrToTr s ranks rmesh g j r x = M.toTau s (fun i => g i r x) j ∧
      M.trToWr s ranks rmesh g j r x = M.toFreq s (fun i => g i r x) j := by
  unfold Mesh.wrToTr Mesh.trToWr
  rw [C02_distributedAssign ranks hr rmesh hn, C02_distributedAssign ranks hr rmesh hn, if_pos (hall r), if_pos (hall r)]
  exact ⟨rfl, rfl⟩

/-- **C110.**  `fourier_wr_to_tr` and `fourier_tr_to_wr` on DLR meshes are inverse to each other. -/
theorem C110_roundtrip (s : Stat) (hM : M.Proper) {ranks : ℕ} (hr : 0 < ranks)
    {rmesh : List R} (hn : rmesh.Nodup) (hall : ∀ r, r ∈ rmesh) (g : ι → R → T → ℂ) :
    M.trToWr s ranks rmesh (M.wrToTr s ranks rmesh g) = g ∧
      M.wrToTr s ranks rmesh (M.trToWr s ranks rmesh g) = g := by
  constructor
  · funext j r x
    rw [(C110_lattice M s hr hn hall _ j r x).2]
    simp only [(C110_lattice M s hr hn hall g _ r x).1]
    exact congrFun (C110_freq_time_freq M s hM fun i => g i r x) j
  · funext j r x
    rw [(C110_lattice M s hr hn hall _ j r x).1]
    simp only [(C110_lattice M s hr hn hall g _ r x).2]
    exact congrFun (C110_time_freq_time M s hM fun i => g i r x) j

end Lattice

/-- a function of imaginary time is a sum of poles of the mesh -/
def InSpan (h : ℝ → ℂ) : Prop :=
  ∃ c : ι → ℂ, ∀ t, h t = ∑ l, c l * (-(exp (-(M.omega l : ℂ) * t) / (1 + exp (-(M.omega l : ℂ) * M.beta))))

theorem freeTau_spec (beta t x : ℝ) :
    freeTau beta t x = -(exp (-(x : ℂ) * t) / (1 + exp (-(x : ℂ) * beta))) := by
  have hw : (weight beta x : ℂ) * (1 + exp (-(x : ℂ) * beta)) = 1 := by
    have := congrArg (fun r : ℝ => (r : ℂ)) (weight_mul beta x)
    push_cast at this
    exact this
  have hne : 1 + exp (-(x : ℂ) * beta) ≠ 0 := right_ne_zero_of_mul_eq_one hw
  rw [freeTau_eq, eq_div_of_mul_eq hne hw]
  ring

theorem inSpan_iff (h : ℝ → ℂ) : InSpan M h ↔ ∃ c, h = M.evalTau c := by
  unfold InSpan Mesh.evalTau
  constructor
  · rintro ⟨c, hc⟩
    refine ⟨c, funext fun t => ?_⟩
    rw [hc]
    exact Finset.sum_congr rfl fun l _ => by rw [freeTau_spec]
  · rintro ⟨c, rfl⟩
    exact ⟨c, fun t => Finset.sum_congr rfl fun l _ => by rw [freeTau_spec]⟩

/-- **C110.**  For sums of poles of the mesh the transforms are exact: values at the time nodes go to the Matsubara
integrals at the frequency nodes. -/
theorem C110_exact_freq (s : Stat) (hM : M.Proper) {h : ℝ → ℂ} (hh : InSpan M h) (j : ι) :
    M.toFreq s (fun i => h (M.tau i)) j = ∫ t in (0 : ℝ)..M.beta, exp (matsubara s M.beta (M.nu s j) * t) * h t := by
  obtain ⟨c, rfl⟩ := (inSpan_iff M h).1 hh
  rw [evalFreq_integral M hM.beta_pos, Mesh.toFreq, fitTau_eval M (kTau_isUnit hM)]

/-- **C110.**  And Matsubara integrals at the frequency nodes go to the values at the time nodes. -/
theorem C110_exact_time (s : Stat) (hM : M.Proper) {h : ℝ → ℂ} (hh : InSpan M h)
    (j : ι) :
    M.toTau s (fun i => ∫ t in (0 : ℝ)..M.beta, exp (matsubara s M.beta (M.nu s i) * t) * h t) j = h (M.tau j) := by
  obtain ⟨c, rfl⟩ := (inSpan_iff M h).1 hh
  simp only [evalFreq_integral M hM.beta_pos]
  rw [Mesh.toTau, fitFreq_eval M s (kFreq_isUnit hM s)]

/-- **C110.**  `dlr_on_imtime` and `dlr_on_imfreq`: the function can then be evaluated exactly on any other mesh. -/
theorem C110_evaluate (s : Stat) (hM : M.Proper) {h : ℝ → ℂ} (hh : InSpan M h)
    (times : List ℝ) (freqs : List ℤ) :
    let c := M.fitTau fun i => h (M.tau i)
    M.onImtime c times = times.map h ∧
      M.onImfreq s c freqs
        = freqs.map fun m => ∫ t in (0 : ℝ)..M.beta, exp (matsubara s M.beta m * t) * h t := by
  obtain ⟨c, rfl⟩ := (inSpan_iff M h).1 hh
  simp only [fitTau_eval M (kTau_isUnit hM), evalFreq_integral M hM.beta_pos]
  exact ⟨rfl, rfl⟩

/-- **C110.**  For other functions the error of the transform is bounded by how well some sum of poles reproduces the
function at the nodes, times a constant of the mesh. -/
theorem C110_error (s : Stat) (hM : M.Proper) (y yt c : ι → ℂ) (A B : ℝ)
    (hA : ∀ i, ‖y i - M.evalFreq s c (M.nu s i)‖ ≤ A) (hB : ∀ i, ‖yt i - M.evalTau c (M.tau i)‖ ≤ B) (j : ι) :
    ‖M.toTau s y j - yt j‖ ≤ (∑ i, ‖(M.kTau * (M.kFreq s)⁻¹) j i‖) * A + B := by
  have h1 : ∀ z : ι → ℂ, M.toTau s z j = ∑ i, (M.kTau * (M.kFreq s)⁻¹) j i * z i := by
    intro z
    unfold Mesh.toTau
    rw [← kTau_mulVec, Mesh.fitFreq, Matrix.mulVec_mulVec]
    rfl
  have h2 : M.evalTau c (M.tau j) = M.toTau s (fun i => M.evalFreq s c (M.nu s i)) j := by
    unfold Mesh.toTau
    rw [fitFreq_eval M s (kFreq_isUnit hM s)]
  have h3 : M.toTau s y j - yt j
      = (∑ i, (M.kTau * (M.kFreq s)⁻¹) j i * (y i - M.evalFreq s c (M.nu s i)))
        - (yt j - M.evalTau c (M.tau j)) := by
    rw [h2, h1, h1]
    simp only [mul_sub, Finset.sum_sub_distrib]
    ring
  rw [h3]
  refine (norm_sub_le _ _).trans (add_le_add ?_ (hB j))
  refine (norm_sum_le _ _).trans ?_
  rw [Finset.sum_mul]
  refine Finset.sum_le_sum fun i _ => ?_
  rw [norm_mul]
  exact mul_le_mul_of_nonneg_left (hA i) (norm_nonneg _)

/-- **C110.**  The density of a Green's function whose levels are poles of the mesh is the sum of its weights times the
Fermi function. -/
theorem C110_density (hM : M.Proper) (c : ι → ℂ) :
    M.rhoPoint (fun j => ∑ l, c l / (matsubara .fermion M.beta (M.nu .fermion j) - M.omega l))
      = ∑ l, c l * (1 / (Real.exp (M.omega l * M.beta) + 1) : ℝ) := by
  unfold Mesh.rhoPoint
  have e : (fun j => ∑ l, c l / (matsubara .fermion M.beta (M.nu .fermion j) - M.omega l))
      = fun j => M.evalFreq .fermion c (M.nu .fermion j) := by
    funext j
    refine Finset.sum_congr rfl fun l _ => ?_
    simp only [kernelFreq]
    rw [mul_one_div]
  rw [e, fitFreq_eval M _ (kFreq_isUnit hM _), Mesh.evalTau, ← Finset.sum_neg_distrib]
  refine Finset.sum_congr rfl fun l _ => ?_
  have h := weight_exp M.beta (M.omega l)
  rw [C20_fermi] at h
  rw [← h, freeTau_eq]
  push_cast
  ring

/-- **C110.**  The bubble of Green's functions on DLR meshes (`chi0_tr_from_grt_PH`, values at the time nodes, then the
bosonic transform) is exact if the differences of the poles that occur are poles of the mesh. -/
theorem C110_bubble (hM : M.Proper) (c c' : ι → ℂ)
    (hd : ∀ l m, c l ≠ 0 → c' m ≠ 0 → ∃ p, M.omega p = M.omega l - M.omega m) (j : ι) :
    M.toFreq .boson (fun i => M.evalTau c (M.tau i) * M.evalTau c' (M.beta - M.tau i)) j
      = ∫ t in (0 : ℝ)..M.beta, exp (matsubara .boson M.beta (M.nu .boson j) * t)
          * (M.evalTau c t * M.evalTau c' (M.beta - t)) := by
  have hs : InSpan M fun t => M.evalTau c t * M.evalTau c' (M.beta - t) := by
    rw [inSpan_iff]
    choose! p hp using hd
    have key : ∀ l m, c l ≠ 0 → c' m ≠ 0 → ∃ a : ℂ, ∀ t, freeTau M.beta t (M.omega l)
        * freeTau M.beta (M.beta - t) (M.omega m) = a * freeTau M.beta t (M.omega (p l m)) := by
      intro l m hl hm
      refine ⟨-(weight M.beta (M.omega l) * weight M.beta (M.omega m) * exp (-(M.omega m : ℂ) * M.beta))
        / weight M.beta (M.omega (p l m)), fun t => ?_⟩
      have hw : (weight M.beta (M.omega (p l m)) : ℂ) ≠ 0 := by
        exact_mod_cast (weight_pos M.beta (M.omega (p l m))).ne'
      rw [freeTau_eq, freeTau_eq, freeTau_eq, hp l m hl hm]
      rw [hp l m hl hm] at hw
      have e : exp (-(M.omega l : ℂ) * t) * exp (-(M.omega m : ℂ) * ((M.beta - t : ℝ) : ℂ))
          = exp (-(M.omega m : ℂ) * M.beta) * exp (-((M.omega l - M.omega m : ℝ) : ℂ) * t) := by
        rw [← exp_add, ← exp_add]
        congr 1
        push_cast
        ring
      have e2 : ∀ a b : ℂ, b ≠ 0 → ∀ z, -a / b * (-b * z) = a * z := by
        intro a b hb z
        field_simp
      rw [e2 _ _ hw, mul_mul_mul_comm, e]
      ring
    choose! a ha using key
    refine ⟨fun q => ∑ l, ∑ m, if p l m = q then c l * c' m * a l m else 0, funext fun t => ?_⟩
    unfold Mesh.evalTau
    rw [Finset.sum_mul_sum]
    simp only [Finset.sum_mul]
    rw [Finset.sum_comm]
    conv_rhs => rw [Finset.sum_comm]
    rw [Finset.sum_comm]
    refine Finset.sum_congr rfl fun l _ => ?_
    rw [Finset.sum_comm]
    refine Finset.sum_congr rfl fun m _ => ?_
    rw [Finset.sum_eq_single (p l m) (fun q _ hq => by rw [if_neg (Ne.symm hq), zero_mul])
      (fun h => absurd (Finset.mem_univ _) h), if_pos rfl]
    by_cases hl : c l = 0
    · simp [hl]
    · by_cases hm : c' m = 0
      · simp [hm]
      · linear_combination (c l * c' m) * ha l m hl hm t
  exact C110_exact_freq M .boson hM hs j

end Verif.Dlr
