import Verif.GfMesh.Model
import Mathlib.Tactic.Linarith
import Mathlib.Tactic.FieldSimp
import Mathlib.Algebra.Algebra.Bilinear
import Mathlib.Analysis.Real.Pi.Bounds

/-!
# C94, C95: moving Green's functions between meshes and target spaces
-/

noncomputable section

set_option linter.unusedSectionVars false

namespace Verif.GfMesh

open Verif.Fourier

/-! ## C94 -/

theorem mem_indices_fermion (beta : ℝ) (n : ℕ) (i : ℤ) :
    i ∈ (FMesh.mk beta .fermion n).indices ↔ -(n : ℤ) ≤ i ∧ i < n := by
  simp only [FMesh.indices, FMesh.len, FMesh.first, List.mem_map, List.mem_range]
  constructor
  · rintro ⟨j, hj, rfl⟩
    omega
  · rintro ⟨h1, h2⟩
    exact ⟨(i + n).toNat, by omega, by omega⟩

theorem mem_indices_boson (beta : ℝ) (n : ℕ) (i : ℤ) :
    i ∈ (FMesh.mk beta .boson n).indices ↔ -(n : ℤ) < i ∧ i < n := by
  simp only [FMesh.indices, FMesh.len, FMesh.first, List.mem_map, List.mem_range]
  constructor
  · rintro ⟨j, hj, rfl⟩
    omega
  · rintro ⟨h1, h2⟩
    exact ⟨(i + (n - 1)).toNat, by omega, by omega⟩

theorem copy_fold {α : Type} (ok : ℤ → Prop) [DecidablePred ok] (g : ℤ → α) (L : List ℤ) :
    ∀ out : ℤ → α,
    ((∀ i ∈ L, ok i) → L.foldlM (fun out i => if ok i then Except.ok (Function.update out i (g i))
        else (.error "index" : Except String (ℤ → α))) out = .ok fun i => if i ∈ L then g i else out i) ∧
    ((∃ i ∈ L, ¬ ok i) → L.foldlM (fun out i => if ok i then Except.ok (Function.update out i (g i))
        else (.error "index" : Except String (ℤ → α))) out = .error "index") := by
  induction L with
  | nil =>
    intro out
    refine ⟨fun _ => ?_, fun h => ?_⟩
    · simp only [List.foldlM_nil, List.not_mem_nil, if_false]
      rfl
    · obtain ⟨i, hi, _⟩ := h
      exact absurd hi List.not_mem_nil
  | cons j L ih =>
    intro out
    constructor
    · intro h
      rw [List.foldlM_cons, if_pos (h j (by simp))]
      change L.foldlM _ (Function.update out j (g j)) = _
      rw [(ih _).1 fun i hi => h i (by simp [hi])]
      congr 1
      funext i
      by_cases hi : i ∈ L
      · simp [hi]
      · by_cases hij : i = j
        · subst hij; simp [hi]
        · simp [hi, hij]
    · rintro ⟨i, hi, hn⟩
      rw [List.foldlM_cons]
      by_cases hj : ok j
      · rw [if_pos hj]
        change L.foldlM _ (Function.update out j (g j)) = _
        refine (ih _).2 ⟨i, ?_, hn⟩
        rcases List.mem_cons.1 hi with rfl | h
        · exact absurd hj hn
        · exact h
      · rw [if_neg hj]
        rfl

theorem copyIndices_ok {α : Type} [Zero α] (src dst : FMesh) (g : ℤ → α) (h : ∀ i ∈ dst.indices, i ∈ src.indices) :
    copyIndices src dst g = .ok fun i => if i ∈ dst.indices then g i else 0 :=
  (copy_fold (· ∈ src.indices) g dst.indices _).1 h

theorem copyIndices_error {α : Type} [Zero α] (src dst : FMesh) (g : ℤ → α)
    (h : ∃ i ∈ dst.indices, i ∉ src.indices) : copyIndices src dst g = .error "index" :=
  (copy_fold (· ∈ src.indices) g dst.indices _).2 h

/-- a mesh that is not longer is contained, whatever the statistics -/
theorem indices_subset (src dst : FMesh) (h : dst.len ≤ src.len) : ∀ i ∈ dst.indices, i ∈ src.indices := by
  intro i hi
  obtain ⟨b1, s1, n1⟩ := src
  obtain ⟨b2, s2, n2⟩ := dst
  cases s1 <;> cases s2 <;>
    simp only [mem_indices_fermion, mem_indices_boson, FMesh.len] at hi h ⊢ <;> omega

/-- value of a Green's function at a complex frequency, if that is a frequency of its mesh -/
def HasValue {α : Type} (m : FMesh) (g : ℤ → α) (z : ℂ) (v : α) : Prop :=
  ∃ i ∈ m.indices, z = matsubara m.stat m.beta i ∧ v = g i

/-- C94: moving a Green's function to a mesh of the same temperature and statistics that is not longer succeeds and
keeps the value at every frequency; a longer mesh is refused. -/
theorem C94_put_partial {α : Type} [Zero α] (src dst : FMesh) (g : ℤ → α) (hb : dst.beta = src.beta)
    (hs : dst.stat = src.stat) :
    (dst.len ≤ src.len → ∃ g', putGfOnMesh src dst g = .ok g' ∧
      (∀ z v, HasValue dst g' z v → HasValue src g z v) ∧ ∀ i ∈ dst.indices, g' i = g i) ∧
    (src.len < dst.len → putGfOnMesh src dst g = .error "AssertionError") := by
  constructor
  · intro h
    refine ⟨_, by rw [putGfOnMesh, if_pos h, copyIndices_ok src dst g (indices_subset src dst h)], ?_, ?_⟩
    · rintro z v ⟨i, hi, hz, hv⟩
      refine ⟨i, indices_subset src dst h i hi, by rw [hz, hb, hs], ?_⟩
      rw [hv]
      exact if_pos hi
    · intro i hi
      exact if_pos hi
  · intro h
    rw [putGfOnMesh, if_neg (by omega)]

/-- a bosonic target mesh is filled from a fermionic function -/
theorem put_mixed (beta : ℝ) (g : ℤ → ℂ) :
    putGfOnMesh ⟨beta, .fermion, 1⟩ ⟨beta, .boson, 1⟩ g = .ok fun i => if i = 0 then g 0 else 0 := by
  have h : (FMesh.mk beta .boson 1).len ≤ (FMesh.mk beta .fermion 1).len := Nat.le_succ 1
  rw [putGfOnMesh, if_pos h, copyIndices_ok _ _ _ (indices_subset _ _ h)]
  congr 1
  funext i
  have : i ∈ (FMesh.mk beta .boson 1).indices ↔ i = 0 := by
    rw [mem_indices_boson]; omega
  by_cases hi : i = 0
  · rw [if_pos (this.2 hi), if_pos hi, hi]
  · rw [if_neg (fun h => hi (this.1 h)), if_neg hi]

/-- C94: temperature and statistics are not compared. The function `1 / z` on a fermionic mesh, moved to a bosonic
mesh, is attributed to the frequency zero; moved to another temperature it has the values of the old frequencies. -/
theorem C94_put_violated (beta beta' : ℝ) (hb : 0 < beta) (hb' : 0 < beta') (hne : beta ≠ beta') :
    (∃ (g g' : ℤ → ℂ), (∀ i, g i = (matsubara .fermion beta i)⁻¹) ∧
      putGfOnMesh ⟨beta, .fermion, 1⟩ ⟨beta, .boson, 1⟩ g = .ok g' ∧
      HasValue ⟨beta, .boson, 1⟩ g' 0 (matsubara .fermion beta 0)⁻¹ ∧
      ∀ v, ¬ HasValue ⟨beta, .fermion, 1⟩ g 0 v) ∧
    ∃ (g g' : ℤ → ℂ), (∀ i, g i = (matsubara .fermion beta i)⁻¹) ∧
      putGfOnMesh ⟨beta, .fermion, 1⟩ ⟨beta', .fermion, 1⟩ g = .ok g' ∧
      ∀ i ∈ (FMesh.mk beta' .fermion 1).indices, g' i ≠ (matsubara .fermion beta' i)⁻¹ := by
  have hpi := Real.pi_pos
  have hne0 : ∀ (b : ℝ), 0 < b → ∀ i : ℤ, matsubara .fermion b i ≠ 0 := by
    intro b hb i h
    simp only [matsubara] at h
    have h1 := (mul_eq_zero.1 h).resolve_left Complex.I_ne_zero
    rw [div_eq_zero_iff, mul_eq_zero] at h1
    rcases h1 with (h1 | h1) | h1
    · have : (2 * i + 1 : ℤ) = 0 := by exact_mod_cast h1
      omega
    · exact hpi.ne' (by exact_mod_cast h1)
    · exact hb.ne' (by exact_mod_cast h1)
  constructor
  · refine ⟨fun i => (matsubara .fermion beta i)⁻¹, _, fun _ => rfl, put_mixed beta _, ⟨0, ?_, ?_, ?_⟩, ?_⟩
    · rw [mem_indices_boson]; omega
    · simp [matsubara]
    · exact (if_pos rfl).symm
    · rintro v ⟨i, _, hz, _⟩
      exact hne0 beta hb i hz.symm
  · have hl : (FMesh.mk beta' .fermion 1).len ≤ (FMesh.mk beta .fermion 1).len := le_refl _
    refine ⟨fun i => (matsubara .fermion beta i)⁻¹, _, fun _ => rfl, by
      rw [putGfOnMesh, if_pos hl, copyIndices_ok _ _ _ (indices_subset _ _ hl)], ?_⟩
    intro i hi h
    rw [if_pos hi] at h
    have h1 := inv_injective h
    simp only [matsubara] at h1
    have h2 := mul_left_cancel₀ Complex.I_ne_zero h1
    have hb1 : (beta : ℂ) ≠ 0 := by exact_mod_cast hb.ne'
    have hb2 : (beta' : ℂ) ≠ 0 := by exact_mod_cast hb'.ne'
    rw [div_eq_div_iff hb1 hb2] at h2
    have h3 : ((2 * (i : ℂ) + 1) * Real.pi) ≠ 0 := by
      apply mul_ne_zero
      · have : (2 * i + 1 : ℤ) ≠ 0 := by omega
        exact_mod_cast this
      · exact_mod_cast hpi.ne'
    have h4 := mul_left_cancel₀ h3 h2
    exact hne (by exact_mod_cast h4.symm)

/-- C94: `strip_sigma` succeeds exactly when the temperature agrees and the window fits into the mesh of the self
energy; the values are those of the same index, so for a fermionic self energy at the same temperature those of the
same frequency. -/
theorem C94_strip {α : Type} [Zero α] (nw : ℕ) (beta : ℝ) (n : ℕ) (beta' : ℝ) (g : ℤ → α) :
    (|beta - beta'| < 1.5 * 10 ^ (-7 : ℤ) ∧ nw ≤ n → ∃ g',
      stripSigma nw beta ⟨beta', .fermion, n⟩ g false = .ok (⟨beta, .fermion, nw⟩, g') ∧
      (∀ i ∈ (FMesh.mk beta .fermion nw).indices, g' i = g i) ∧
      (beta = beta' → ∀ z v, HasValue ⟨beta, .fermion, nw⟩ g' z v → HasValue ⟨beta', .fermion, n⟩ g z v)) ∧
    (¬ (|beta - beta'| < 1.5 * 10 ^ (-7 : ℤ) ∧ nw ≤ n) →
      ∃ e, stripSigma nw beta ⟨beta', .fermion, n⟩ g false = .error e) := by
  constructor
  · rintro ⟨h1, h2⟩
    have hsub : ∀ i ∈ (FMesh.mk beta .fermion nw).indices, i ∈ (FMesh.mk beta' .fermion n).indices := by
      intro i hi
      rw [mem_indices_fermion] at hi ⊢
      omega
    refine ⟨fun i => if i ∈ (FMesh.mk beta .fermion nw).indices then g i else 0, ?_, ?_, ?_⟩
    · unfold stripSigma
      rw [if_pos h1]
      dsimp only
      rw [copyIndices_ok _ _ _ hsub]
      rfl
    · intro i hi
      exact if_pos hi
    · rintro rfl z v ⟨i, hi, hz, hv⟩
      exact ⟨i, hsub i hi, hz, hv.trans (if_pos hi)⟩
  · intro h
    unfold stripSigma
    by_cases h1 : |beta - beta'| < 1.5 * 10 ^ (-7 : ℤ)
    · have h2 : n < nw := by
        by_contra h2
        exact h ⟨h1, by omega⟩
      have : copyIndices ⟨beta', .fermion, n⟩ ⟨beta, .fermion, nw⟩ g = .error "index" := by
        refine copyIndices_error _ _ _ ⟨n, ?_, ?_⟩
        · rw [mem_indices_fermion]; omega
        · rw [mem_indices_fermion]; omega
      refine ⟨"index", ?_⟩
      rw [if_pos h1]
      dsimp only
      rw [this]
    · exact ⟨_, if_neg h1⟩

/-- C94: a window of two frequencies of a mesh with six -/
example : |(10 : ℝ) - 10| < 1.5 * 10 ^ (-7 : ℤ) ∧ 1 ≤ 3 := by norm_num

/-- C94: the function with the additional mesh has the old values at its only, zero frequency, at the temperature given
or, if none is given, at that of the first component that has one. -/
theorem C94_fake {X α : Type} [Zero α] (meshes : List AnyMesh) (g : X → α) (beta : Option ℝ) :
    (∀ b, (beta = some b ∧ b ≠ 0) ∨ (beta = none ∧ ∃ pre m post, meshes = pre ++ m :: post ∧ m.beta = some b ∧
        ∀ m' ∈ pre, m'.beta = none) →
      ∃ data, addFakeBosonicMesh meshes g beta = .ok ((⟨b, .boson, 1⟩, meshes), data) ∧ (∀ x, data 0 x = g x) ∧
        (FMesh.mk b .boson 1).len = 1 ∧ ∀ i, i ∈ (FMesh.mk b .boson 1).indices ↔ i = 0) ∧
    (beta = none → (∀ m ∈ meshes, m.beta = none) → addFakeBosonicMesh meshes g beta = .error "ValueError") := by
  have hlen : ∀ b, (FMesh.mk b .boson 1).len = 1 := fun _ => rfl
  have hidx : ∀ b i, i ∈ (FMesh.mk b .boson 1).indices ↔ i = 0 := by
    intro b i
    rw [mem_indices_boson]; omega
  constructor
  · rintro b (⟨rfl, hb⟩ | ⟨rfl, pre, m, post, rfl, hm, hpre⟩)
    · refine ⟨fun w x => if w = 0 then g x else 0, ?_, fun x => if_pos rfl, hlen b, hidx b⟩
      simp only [addFakeBosonicMesh, if_neg hb]
    · have hf : (pre ++ m :: post).filterMap AnyMesh.beta = b :: post.filterMap AnyMesh.beta := by
        rw [List.filterMap_append, List.filterMap_cons, hm]
        rw [List.filterMap_eq_nil_iff.2 hpre]
        rfl
      refine ⟨fun w x => if w = 0 then g x else 0, ?_, fun x => if_pos rfl, hlen b, hidx b⟩
      simp only [addFakeBosonicMesh, hf]
  · rintro rfl h
    simp only [addFakeBosonicMesh, List.filterMap_eq_nil_iff.2 h]

/-- a function of time and momentum -/
example : ∃ pre m post, ([⟨8, none⟩, ⟨5, some 2⟩] : List AnyMesh) = pre ++ m :: post ∧ m.beta = some 2 ∧
    ∀ m' ∈ pre, m'.beta = none :=
  ⟨[⟨8, none⟩], ⟨5, some 2⟩, [], rfl, rfl, by simp⟩

/-! ## C95 -/

/-- C95: if `chi_abcd` is the correlator of `c†_a c_b` with `c†_c c_d`, the contraction is the correlator of the two
one body operators; `cor` is any bilinear pairing on an algebra. -/
theorem C95_contraction {X A : Type} [Ring A] [Algebra ℂ A] (cor : X → A →ₗ[ℂ] A →ₗ[ℂ] ℂ) (cdag c : ℕ → A) (n : ℕ)
    (op1 op2 : ℕ → ℕ → ℂ) :
    ∃ r, chiContraction (n, n, n, n) (fun x a b d e => cor x (cdag a * c b) (cdag d * c e)) (n, n) (n, n) op1 op2
        = .ok r ∧
      ∀ x, r x = cor x (∑ a ∈ Finset.range n, ∑ b ∈ Finset.range n, op1 a b • (cdag a * c b))
        (∑ a ∈ Finset.range n, ∑ b ∈ Finset.range n, op2 a b • (cdag a * c b)) := by
  refine ⟨_, by simp only [chiContraction, ne_eq, not_true_eq_false, or_self, if_false]; rfl, ?_⟩
  intro x
  have h1 : ∀ B, cor x (∑ a ∈ Finset.range n, ∑ b ∈ Finset.range n, op1 a b • (cdag a * c b)) B
      = ∑ a ∈ Finset.range n, ∑ b ∈ Finset.range n, op1 a b * cor x (cdag a * c b) B := by
    intro B
    simp only [map_sum, LinearMap.sum_apply, map_smul, LinearMap.smul_apply, smul_eq_mul]
  have h2 : ∀ A, cor x A (∑ a ∈ Finset.range n, ∑ b ∈ Finset.range n, op2 a b • (cdag a * c b))
      = ∑ a ∈ Finset.range n, ∑ b ∈ Finset.range n, op2 a b * cor x A (cdag a * c b) := by
    intro A
    simp only [map_sum, map_smul, smul_eq_mul]
  rw [h1]
  refine Finset.sum_congr rfl fun a _ => Finset.sum_congr rfl fun b _ => ?_
  rw [h2, Finset.mul_sum]
  refine Finset.sum_congr rfl fun d _ => ?_
  rw [Finset.mul_sum]
  refine Finset.sum_congr rfl fun e _ => ?_
  ring

/-- C95: operators of another shape are refused. -/
theorem C95_refused {X : Type} (shape : ℕ × ℕ × ℕ × ℕ) (chi : X → ℕ → ℕ → ℕ → ℕ → ℂ) (s1 s2 : ℕ × ℕ)
    (op1 op2 : ℕ → ℕ → ℂ) :
    (∃ r, chiContraction shape chi s1 s2 op1 op2 = .ok r) ↔
      s1 = (shape.1, shape.2.1) ∧ s2 = (shape.2.2.1, shape.2.2.2) := by
  unfold chiContraction
  split_ifs with h
  · simp only [exists_false, false_iff, not_and]
    rintro rfl rfl
    simp at h
  · push Not at h
    simp only [Except.ok.injEq, exists_eq', true_iff]
    exact ⟨h.1.symm, h.2.symm⟩

/-- position of an element of a tensor -/
theorem tensor_position (s1 s2 s3 a b c d : ℕ) (hb : b < s1) (hc : c < s2) (hd : d < s3) :
    let p := ((a * s1 + b) * s2 + c) * s3 + d
    p / s3 / s2 / s1 = a ∧ p / s3 / s2 % s1 = b ∧ p / s3 % s2 = c ∧ p % s3 = d ∧ p / (s2 * s3) = a * s1 + b ∧
      p % (s2 * s3) = c * s3 + d := by
  intro p
  have e1 : p / s3 = (a * s1 + b) * s2 + c := by
    simp only [p]
    rw [add_comm, Nat.add_mul_div_right _ _ (by omega), Nat.div_eq_of_lt hd, zero_add]
  have e2 : p / s3 / s2 = a * s1 + b := by
    rw [e1, add_comm, Nat.add_mul_div_right _ _ (by omega), Nat.div_eq_of_lt hc, zero_add]
  have e3 : p % s3 = d := by
    simp only [p]
    rw [add_comm, Nat.add_mul_mod_self_right, Nat.mod_eq_of_lt hd]
  have e4 : p / s3 % s2 = c := by
    rw [e1, add_comm, Nat.add_mul_mod_self_right, Nat.mod_eq_of_lt hc]
  have e5 : p / (s2 * s3) = a * s1 + b := by
    rw [mul_comm, ← Nat.div_div_eq_div_mul, e2]
  refine ⟨?_, ?_, e4, e3, e5, ?_⟩
  · rw [e2, add_comm, Nat.add_mul_div_right _ _ (by omega), Nat.div_eq_of_lt hb, zero_add]
  · rw [e2, add_comm, Nat.add_mul_mod_self_right, Nat.mod_eq_of_lt hb]
  · have h := Nat.div_add_mod p (s2 * s3)
    rw [e5] at h
    have hp : p = s2 * s3 * (a * s1 + b) + (c * s3 + d) := by simp only [p]; ring
    omega

/-- C95: the matrix groups the first two and the last two indices in row major order, and going back restores the
tensor. -/
theorem C95_matrix {X : Type} (shape : ℕ × ℕ × ℕ × ℕ) (g : X → ℕ → ℕ → ℕ → ℕ → ℂ) (x : X) (a b c d : ℕ)
    (hb : b < shape.2.1) (hc : c < shape.2.2.1) (hd : d < shape.2.2.2) :
    tensorToMatrix shape g x (a * shape.2.1 + b) (c * shape.2.2.2 + d) = g x a b c d ∧
    matrixToTensor (shape.2.2.1 * shape.2.2.2) shape (tensorToMatrix shape g) x a b c d = g x a b c d := by
  obtain ⟨s0, s1, s2, s3⟩ := shape
  have h := tensor_position s1 s2 s3 a b c d hb hc hd
  dsimp only at h
  obtain ⟨h1, h2, h3, h4, h5, h6⟩ := h
  have e : (a * s1 + b) * (s2 * s3) + (c * s3 + d) = ((a * s1 + b) * s2 + c) * s3 + d := by ring
  have hm : tensorToMatrix (s0, s1, s2, s3) g x (a * s1 + b) (c * s3 + d) = g x a b c d := by
    simp only [tensorToMatrix]
    rw [e, h1, h2, h3, h4]
  refine ⟨hm, ?_⟩
  simp only [matrixToTensor]
  rw [h5, h6, hm]

/-- C95: every component at every momentum is continued on its own, with the data of that component and momentum, for
functions with two and with four indices. -/
theorem C95_pade {K F : Type} (pade : (ℤ → ℂ) → F → ℂ) (shape : ℕ × ℕ × ℕ × ℕ)
    (g2 : ℤ → K → ℕ → ℕ → ℂ) (g4 : ℤ → K → ℕ → ℕ → ℕ → ℕ → ℂ) (f : F) (k : K) (a b c d : ℕ) (hb : b < shape.2.1)
    (hc : c < shape.2.2.1) (hd : d < shape.2.2.2) (toSmall : (ℤ → ℂ) → ℤ → ℂ) :
    padeMatrix pade .imfreq g2 f k a b = pade (fun w => g2 w k a b) f ∧
    padeTensor pade .imfreq shape g4 f k a b c d = pade (fun w => g4 w k a b c d) f ∧
    padeMatrix pade (.dlr toSmall) g2 f k a b = pade (toSmall fun w => g2 w k a b) f ∧
    padeTensor pade (.dlr toSmall) shape g4 f k a b c d = pade (toSmall fun w => g4 w k a b c d) f := by
  have hm : ∀ w, tensorToMatrix shape (fun w => g4 w k) w (a * shape.2.1 + b) (c * shape.2.2.2 + d)
      = g4 w k a b c d := fun w => (C95_matrix shape (fun w => g4 w k) w a b c d hb hc hd).1
  have h := tensor_position shape.2.1 shape.2.2.1 shape.2.2.2 a b c d hb hc hd
  dsimp only at h
  obtain ⟨-, -, -, -, h5, h6⟩ := h
  refine ⟨rfl, ?_, rfl, ?_⟩
  · simp only [padeTensor, matrixToTensor, sample, onComponents]
    rw [h5, h6]
    simp only [hm]
  · simp only [padeTensor, matrixToTensor, sample, onComponents]
    rw [h5, h6]
    simp only [hm]

/-- a rectangular target -/
example : (1 : ℕ) < ((2, 3, 3, 2) : ℕ × ℕ × ℕ × ℕ).2.1 ∧ 2 < ((2, 3, 3, 2) : ℕ × ℕ × ℕ × ℕ).2.2.1 ∧
    1 < ((2, 3, 3, 2) : ℕ × ℕ × ℕ × ℕ).2.2.2 := by decide

end Verif.GfMesh
