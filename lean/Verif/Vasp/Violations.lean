import Verif.Vasp.Props

/-!
# C96: inputs for which the parser fails or is silently wrong, and concrete cases of the theorems
-/

noncomputable section

set_option linter.unusedSectionVars false

namespace Verif.Vasp

open Verif.KMesh

/-- C96 is violated for one orbital with one momentum per file: such a file has a single row, which is dropped, and
the parser raises, whatever the values. -/
theorem C96_single_violated (npNames : Bool) (rows : List Row) (orbsub : List ℕ) :
    readVasp npNames (rows.map fun r => [r]) orbsub = .error "ValueError" := by
  have : (rows.map fun r => [r]).flatMap loadFile = [] := by
    rw [List.flatMap_eq_nil_iff]
    intro f hf
    obtain ⟨r, -, rfl⟩ := List.mem_map.1 hf
    rfl
  unfold readVasp
  rw [this]
  rfl

/-- C96 is violated with a numpy that no longer has `np.float` and `np.complex`: nothing can be read. -/
theorem C96_numpy_violated (files : List (List Row)) (orbsub : List ℕ) :
    ∃ e, readVasp false files orbsub = .error e := by
  unfold readVasp
  dsimp only
  rw [if_pos rfl]
  split_ifs <;> exact ⟨_, rfl⟩

/-- a momentum along the first axis -/
def axisQ (x : ℝ) : Q3 := ![x, 0, 0]

theorem represents_axis (n : ℕ) (hn : 0 < n) (m : ℤ) (h1 : -(n : ℤ) ≤ m) (h2 : m < n) (i : ℕ)
    (hi : (n : ℤ) ∣ m - i) : Represents ![n, 1, 1] (axisQ (m / n)) ![i, 0, 0] := by
  have hn' : (0 : ℝ) < n := by exact_mod_cast hn
  refine ⟨![m, 0, 0], fun a => ?_⟩
  fin_cases a
  · refine ⟨?_, h1, h2, hi⟩
    show |(m : ℝ) / n - (m : ℝ) / n| < 1 / (2 * n)
    rw [sub_self, abs_zero]
    positivity
  · refine ⟨?_, by simp, by simp, by simp⟩
    show |(0 : ℝ) - ((0 : ℤ) : ℝ) / ((1 : ℕ) : ℝ)| < 1 / (2 * ((1 : ℕ) : ℝ))
    norm_num
  · refine ⟨?_, by simp, by simp, by simp⟩
    show |(0 : ℝ) - ((0 : ℤ) : ℝ) / ((1 : ℕ) : ℝ)| < 1 / (2 * ((1 : ℕ) : ℝ))
    norm_num

theorem represents_axis_inv (n : ℕ) (hn : 0 < n) (m : ℤ) (h1 : -(n : ℤ) ≤ m) (h2 : m < n) (i : ℕ) (hi : i < n)
    (j : ℕ) (hj : j < n) (hmj : (n : ℤ) ∣ m - j)
    (h : Represents ![n, 1, 1] (axisQ (m / n)) ![i, 0, 0]) : i = j := by
  have hnk : ∀ a, 0 < (![n, 1, 1] : Fin 3 → ℕ) a := by
    intro a; fin_cases a
    · exact hn
    · exact one_pos
    · exact one_pos
  have hlt : ∀ x, x < n → ∀ a, (![x, 0, 0] : Fin 3 → ℕ) a < (![n, 1, 1] : Fin 3 → ℕ) a := by
    intro x hx a; fin_cases a
    · exact hx
    · exact one_pos
    · exact one_pos
  have e1 := fileIndex_eq _ hnk _ _ (hlt i hi) h
  have e2 := fileIndex_eq _ hnk _ _ (hlt j hj) (represents_axis n hn m h1 h2 j hmj)
  have := congrFun (e1.symm.trans e2) 0
  exact_mod_cast this

theorem pos211 (n : ℕ) (hn : 0 < n) : ∀ a, 0 < (![n, 1, 1] : Fin 3 → ℕ) a := by
  intro a
  fin_cases a
  · exact hn
  · exact one_pos
  · exact one_pos

theorem lt211 (n x : ℕ) (hx : x < n) : ∀ a, (![x, 0, 0] : Fin 3 → ℕ) a < (![n, 1, 1] : Fin 3 → ℕ) a := by
  intro a
  fin_cases a
  · exact hx
  · exact one_pos
  · exact one_pos

/-- C96 is violated for incomplete data (for example momenta of the irreducible wedge only): no exception, and the
missing mesh points get a vanishing interaction. -/
theorem C96_missing_violated (v : U4) : ∃ u, convert 1 ![2, 1, 1] [v] [axisQ 0] = .ok u ∧
    u (ravel ![2, 1, 1] ![0, 0, 0]) = v ∧ u (ravel ![2, 1, 1] ![1, 0, 0]) = 0 := by
  have e0 : axisQ 0 = axisQ ((0 : ℤ) / (2 : ℕ)) := by norm_num
  have hr : Represents ![2, 1, 1] (axisQ 0) ![0, 0, 0] := by
    rw [e0]
    exact represents_axis 2 two_pos 0 (by norm_num) (by norm_num) 0 (by norm_num)
  obtain ⟨u, hu, hp⟩ := C96_mesh_partial 1 (by simp) ![2, 1, 1] (pos211 2 two_pos) [v] [axisQ 0] rfl (by
    intro q hq
    rw [List.mem_singleton.1 hq]
    exact ⟨_, lt211 2 0 two_pos, hr⟩)
  refine ⟨u, hu, (hp _ (lt211 2 0 two_pos)).2 0 (by simp) hr (fun j' hj' hlt => ?_),
    (hp _ (lt211 2 1 one_lt_two)).1 fun q hq h => ?_⟩
  · simp at hj'
    omega
  · rw [List.mem_singleton.1 hq, e0] at h
    exact absurd (represents_axis_inv 2 two_pos 0 (by norm_num) (by norm_num) 1 one_lt_two 0 two_pos (by norm_num) h)
      one_ne_zero

/-- C96 is violated for a momentum with relative coordinate one: it is the mesh point zero, but its interaction is
dropped without an exception. -/
theorem C96_boundary_violated (v : U4) : ∃ u, convert 1 ![2, 1, 1] [v] [axisQ 1] = .ok u ∧
    ∀ i : Fin 3 → ℕ, (∀ a, i a < (![2, 1, 1] : Fin 3 → ℕ) a) → u (ravel ![2, 1, 1] i) = 0 := by
  obtain ⟨u, hu, hp⟩ := convert_fold 1 ![2, 1, 1] [v] [axisQ 1] 0 0 (by simp)
  refine ⟨u, ?_, fun i hi => ?_⟩
  · unfold convert
    rw [if_neg (by simp)]
    exact hu
  · refine (hp _ (ravel_lt _ i hi)).1 fun q hq he => ?_
    rw [List.mem_singleton.1 hq, meshIndex_ravel 1 (by simp) _ (pos211 2 two_pos) i hi] at he
    have h0 := congrFun he 0
    have hk := congrFun (C93_index ![2, 1, 1] (pos211 2 two_pos) ![2, 0, 0] (axisQ 1) (by
      intro a
      fin_cases a
      · show |(1 : ℝ) - ((2 : ℤ) : ℝ) / ((2 : ℕ) : ℝ)| < 1 / (2 * ((2 : ℕ) : ℝ))
        norm_num
      · show |(0 : ℝ) - ((0 : ℤ) : ℝ) / ((1 : ℕ) : ℝ)| < 1 / (2 * ((1 : ℕ) : ℝ))
        norm_num
      · show |(0 : ℝ) - ((0 : ℤ) : ℝ) / ((1 : ℕ) : ℝ)| < 1 / (2 * ((1 : ℕ) : ℝ))
        norm_num)) 0
    have hk' : npRound (axisQ 1 0 * ((![2, 1, 1] : Fin 3 → ℕ) 0 : ℝ)) = 2 := hk
    have hlt := hi 0
    change i 0 < 2 at hlt
    change (if npRound (axisQ 1 0 * ((![2, 1, 1] : Fin 3 → ℕ) 0 : ℝ)) < 0 then _
      else npRound (axisQ 1 0 * ((![2, 1, 1] : Fin 3 → ℕ) 0 : ℝ))) = (i 0 : ℤ) at h0
    rw [hk', if_neg (by norm_num)] at h0
    omega

/-- a file of one orbital at two momenta -/
def twoRows (a b : ℝ) (x y : ℂ) : List (List Row) := [[⟨axisQ a, fun _ => 1, x⟩, ⟨axisQ b, fun _ => 1, y⟩]]

theorem twoRows_blocks (a b : ℝ) (hab : a < b) (x y : ℂ) :
    List.Forall₂ (FullBlock 1 fun q _ => if q 0 = a then x else y) [axisQ a, axisQ b]
      [[⟨axisQ a, fun _ => 1, x⟩], [⟨axisQ b, fun _ => 1, y⟩]] := by
  have h1 : ∀ (c : ℝ) (z : ℂ), z = (if c = a then x else y) →
      FullBlock 1 (fun q _ => if q 0 = a then x else y) (axisQ c) [⟨axisQ c, fun _ => 1, z⟩] := by
    intro c z hz
    refine ⟨rfl, ?_, ?_⟩
    · intro r hr
      rw [List.mem_singleton.1 hr]
      exact ⟨rfl, fun _ => ⟨le_rfl, le_rfl⟩, hz⟩
    · intro I hI
      refine ⟨_, List.mem_singleton_self _, ?_⟩
      funext i
      have := hI i
      show 1 = I i + 1
      omega
  exact .cons (h1 a x (by rw [if_pos rfl])) (.cons (h1 b y (by rw [if_neg hab.ne'])) .nil)

theorem read_two (a b : ℝ) (hab : a < b) (x y : ℂ) : ∃ U W : U4,
    readVasp true (twoRows a b x y) [] = .ok [(axisQ a, U), (axisQ b, W)] ∧ U 0 0 0 0 = x ∧ W 0 0 0 0 = y := by
  obtain ⟨out, h1, h2, h3, h4, -⟩ := C96_read_partial one_pos (fun q _ => if q 0 = a then x else y)
    [axisQ a, axisQ b] (by simp) (twoRows a b x y) (by simp [twoRows]) _ (by simp [twoRows]) (twoRows_blocks a b hab x y)
    [] (by simp)
  have hk : out.map Prod.fst = [(axisQ a, (0 : U4)), (axisQ b, 0)].map Prod.fst := by
    refine keys_eq _ _ h2 ?_ fun q => (h3 q).trans ?_
    · refine .cons ?_ (.cons (by simp) .nil)
      intro z hz
      rw [List.mem_singleton.1 hz]
      exact ⟨0, fun j hj => absurd hj (by simp), hab⟩
    · constructor
      · intro h
        refine ⟨0, ?_⟩
        simpa using h
      · rintro ⟨U, h⟩
        simp only [List.mem_cons, Prod.mk.injEq, List.not_mem_nil, or_false] at h ⊢
        exact h.imp And.left And.left
  match out, hk, h1, h4 with
  | [(q1, U), (q2, W)], hk, h1, h4 =>
    simp only [List.map_cons, List.map_nil, List.cons.injEq, and_true] at hk
    obtain ⟨rfl, rfl⟩ := hk
    refine ⟨U, W, h1, ?_, ?_⟩
    · rw [h4 rfl (axisQ a) U (by simp) 0 0 0 0 one_pos one_pos one_pos one_pos]
      exact if_pos rfl
    · rw [h4 rfl (axisQ b) W (by simp) 0 0 0 0 one_pos one_pos one_pos one_pos]
      exact if_neg hab.ne'

/-- C96 is violated when the three sets of files have different momenta: they are not compared, and the reduced
interaction of one momentum is added to the bare one of another. Here the screened interaction of the momentum `1/2`
ends up at the mesh point of the momentum `1/3`. -/
theorem C96_mixed_violated (x y : ℂ) : ∃ v u,
    readTriqs true 1 ![3, 1, 1] (twoRows 0 (1 / 2) x y) (twoRows 0 (1 / 3) 0 0) (twoRows 0 (1 / 3) 0 0) [] = .ok (v, u) ∧
    u (ravel ![3, 1, 1] ![1, 0, 0]) 0 0 0 0 = y := by
  obtain ⟨A, B, hU, -, hB⟩ := read_two 0 (1 / 2) (by norm_num) x y
  obtain ⟨C, D, hV, -, hD⟩ := read_two 0 (1 / 3) (by norm_num) 0 0
  have e0 : axisQ 0 = axisQ ((0 : ℤ) / (3 : ℕ)) := by norm_num
  have e1 : axisQ (1 / 3) = axisQ ((1 : ℤ) / (3 : ℕ)) := by norm_num
  have hr0 : Represents ![3, 1, 1] (axisQ 0) ![0, 0, 0] := by
    rw [e0]
    exact represents_axis 3 three_pos 0 (by norm_num) (by norm_num) 0 (by norm_num)
  have hr1 : Represents ![3, 1, 1] (axisQ (1 / 3)) ![1, 0, 0] := by
    rw [e1]
    exact represents_axis 3 three_pos 1 (by norm_num) (by norm_num) 1 (by norm_num)
  have hQ : ∀ q ∈ [axisQ 0, axisQ (1 / 3)], ∃ i, (∀ a, i a < (![3, 1, 1] : Fin 3 → ℕ) a) ∧
      Represents ![3, 1, 1] q i := by
    intro q hq
    simp only [List.mem_cons, List.not_mem_nil, or_false] at hq
    rcases hq with rfl | rfl
    · exact ⟨_, lt211 3 0 three_pos, hr0⟩
    · exact ⟨_, lt211 3 1 (by norm_num), hr1⟩
  obtain ⟨v, hv, -⟩ := C96_mesh_partial 1 (by simp) ![3, 1, 1] (pos211 3 three_pos) [C, D]
    [axisQ 0, axisQ (1 / 3)] rfl hQ
  obtain ⟨u, hu, hp⟩ := C96_mesh_partial 1 (by simp) ![3, 1, 1] (pos211 3 three_pos) [A + (C - C), B + (D - D)]
    [axisQ 0, axisQ (1 / 3)] rfl hQ
  refine ⟨v, u, ?_, ?_⟩
  · unfold readTriqs
    rw [hU, hV]
    simp only [bind, Except.bind, npBin, List.map_cons, List.map_nil, List.length_cons, List.length_nil, if_true,
      List.zipWith_cons_cons, List.zipWith_nil_left]
    rw [hv]
    dsimp only
    rw [hu]
    rfl
  · rw [(hp _ (lt211 3 1 (by norm_num))).2 1 (by simp) hr1 (fun j' hj' hlt => by simp at hj'; omega)]
    show B 0 0 0 0 + (D 0 0 0 0 - D 0 0 0 0) = y
    rw [hB, sub_self, add_zero]

/-- the hypotheses of `C96_read_partial` and `C96_total_partial` are met by a file with one orbital at the momenta `0`
and `1/2` of a mesh with two points -/
example : ∃ (qs : List Q3) (blocks : List (List Row)), qs ≠ [] ∧ (∀ f ∈ twoRows 0 (1 / 2) 3 4, 2 ≤ f.length) ∧
    (twoRows 0 (1 / 2) 3 4).flatten = blocks.flatten ∧
    List.Forall₂ (FullBlock 1 fun q _ => if q 0 = 0 then 3 else 4) qs blocks ∧
    (∀ q ∈ qs, ∃ i, (∀ a, i a < (![2, 1, 1] : Fin 3 → ℕ) a) ∧ Represents ![2, 1, 1] q i) := by
  refine ⟨[axisQ 0, axisQ (1 / 2)], [[⟨axisQ 0, fun _ => 1, 3⟩], [⟨axisQ (1 / 2), fun _ => 1, 4⟩]], by simp,
    by simp [twoRows], rfl, twoRows_blocks 0 (1 / 2) (by norm_num) 3 4, ?_⟩
  intro q hq
  simp only [List.mem_cons, List.not_mem_nil, or_false] at hq
  rcases hq with rfl | rfl
  · refine ⟨_, lt211 2 0 two_pos, ?_⟩
    have : axisQ 0 = axisQ ((0 : ℤ) / (2 : ℕ)) := by norm_num
    rw [this]
    exact represents_axis 2 two_pos 0 (by norm_num) (by norm_num) 0 (by norm_num)
  · refine ⟨_, lt211 2 1 one_lt_two, ?_⟩
    have : axisQ (1 / 2) = axisQ ((1 : ℤ) / (2 : ℕ)) := by norm_num
    rw [this]
    exact represents_axis 2 two_pos 1 (by norm_num) (by norm_num) 1 (by norm_num)

end Verif.Vasp
