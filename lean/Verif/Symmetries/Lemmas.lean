import Verif.Symmetries.Model
import Mathlib.Tactic.Ring
import Mathlib.Tactic.Linarith

/-!
# Helper lemmas for the symmetrisation of Green's functions
-/

namespace Verif.Symmetries

/-! ## Momentum inversion -/

/-- `k` and `k'` have opposite coordinates on the mesh with the given dimensions. -/
def Opposite : List ℕ → ℕ → ℕ → Prop
  | [], _, _ => True
  | n :: ns, k, k' => (k / ns.prod + k' / ns.prod) % n = 0 ∧ Opposite ns (k % ns.prod) (k' % ns.prod)

/-- inversion of a linear index -/
def neg : List ℕ → ℕ → ℕ
  | [], _ => 0
  | n :: ns, i => ((n - i / ns.prod) % n) * ns.prod + neg ns (i % ns.prod)

theorem ravel_invert_unravel (dims : List ℕ) (i : ℕ) :
    ravel dims (invertMomentum dims (unravel dims i)) = neg dims i := by
  induction dims generalizing i with
  | nil => rfl
  | cons n ns ih =>
    simp only [unravel, invertMomentum, List.zipWith_cons_cons, ravel, neg]
    rw [← ih]
    rfl

theorem prod_filter_one (dims : List ℕ) : (dims.filter (· ≠ 1)).prod = dims.prod := by
  induction dims with
  | nil => rfl
  | cons n ns ih =>
    by_cases h : n = 1
    · subst h
      rw [List.filter_cons_of_neg (by simp), ih, List.prod_cons, one_mul]
    · rw [List.filter_cons_of_pos (by simpa using h), List.prod_cons, List.prod_cons, ih]

theorem neg_filter (dims : List ℕ) (i : ℕ) (hi : i < dims.prod) :
    neg (dims.filter (· ≠ 1)) i = neg dims i := by
  induction dims generalizing i with
  | nil => rfl
  | cons n ns ih =>
    rw [List.prod_cons] at hi
    have hp : 0 < ns.prod := by
      rcases Nat.eq_zero_or_pos ns.prod with h | h
      · rw [h] at hi; omega
      · exact h
    by_cases h : n = 1
    · subst h
      rw [List.filter_cons_of_neg (by simp)]
      rw [one_mul] at hi
      rw [ih i hi, neg, Nat.mod_one, zero_mul, zero_add, Nat.mod_eq_of_lt hi]
    · rw [List.filter_cons_of_pos (by simpa using h), neg, neg, prod_filter_one,
        ih _ (Nat.mod_lt _ hp)]

theorem invIdx_eq (dims : List ℕ) (i : ℕ) (hi : i < dims.prod) : invIdx dims i = neg dims i := by
  unfold invIdx
  simp only
  rw [ravel_invert_unravel, neg_filter dims i hi]

theorem neg_lt (dims : List ℕ) (i : ℕ) (hi : i < dims.prod) : neg dims i < dims.prod := by
  induction dims generalizing i with
  | nil => simp [neg]
  | cons n ns ih =>
    rw [List.prod_cons] at hi ⊢
    have hn : 0 < n := by
      rcases Nat.eq_zero_or_pos n with h | h
      · subst h; omega
      · exact h
    have hp : 0 < ns.prod := by
      rcases Nat.eq_zero_or_pos ns.prod with h | h
      · rw [h] at hi; omega
      · exact h
    have h1 := ih (i % ns.prod) (Nat.mod_lt _ hp)
    have h2 : (n - i / ns.prod) % n + 1 ≤ n := Nat.mod_lt _ hn
    rw [neg]
    calc (n - i / ns.prod) % n * ns.prod + neg ns (i % ns.prod)
        < (n - i / ns.prod) % n * ns.prod + ns.prod := by omega
      _ = ((n - i / ns.prod) % n + 1) * ns.prod := by ring
      _ ≤ n * ns.prod := Nat.mul_le_mul_right _ h2

theorem opposite_symm (dims : List ℕ) (i j : ℕ) (h : Opposite dims i j) : Opposite dims j i := by
  induction dims generalizing i j with
  | nil => trivial
  | cons n ns ih => exact ⟨by rw [add_comm]; exact h.1, ih _ _ h.2⟩

theorem opposite_neg (dims : List ℕ) (i : ℕ) (hi : i < dims.prod) :
    Opposite dims i (neg dims i) := by
  induction dims generalizing i with
  | nil => trivial
  | cons n ns ih =>
    rw [List.prod_cons] at hi
    have hn : 0 < n := by
      rcases Nat.eq_zero_or_pos n with h | h
      · subst h; omega
      · exact h
    have hp : 0 < ns.prod := by
      rcases Nat.eq_zero_or_pos ns.prod with h | h
      · rw [h] at hi; omega
      · exact h
    have h1 := neg_lt ns (i % ns.prod) (Nat.mod_lt _ hp)
    have hq : i / ns.prod < n := by
      rw [Nat.div_lt_iff_lt_mul hp]; exact hi
    have hd : neg (n :: ns) i / ns.prod = (n - i / ns.prod) % n := by
      rw [neg, add_comm, Nat.add_mul_div_right _ _ hp, Nat.div_eq_of_lt h1, zero_add]
    have hm : neg (n :: ns) i % ns.prod = neg ns (i % ns.prod) := by
      rw [neg, add_comm, Nat.add_mul_mod_self_right, Nat.mod_eq_of_lt h1]
    refine ⟨?_, ?_⟩
    · rw [hd, Nat.add_mod_mod, Nat.add_sub_cancel' hq.le, Nat.mod_self]
    · rw [hm]
      exact ih _ (Nat.mod_lt _ hp)

theorem opposite_unique (dims : List ℕ) (i j j' : ℕ) (hi : i < dims.prod) (hj : j < dims.prod)
    (hj' : j' < dims.prod) (h : Opposite dims i j) (h' : Opposite dims i j') : j = j' := by
  induction dims generalizing i j j' with
  | nil => simp only [List.prod_nil] at hj hj'; omega
  | cons n ns ih =>
    rw [List.prod_cons] at hi hj hj'
    have hp : 0 < ns.prod := by
      rcases Nat.eq_zero_or_pos ns.prod with h | h
      · rw [h] at hi; omega
      · exact h
    have hm := ih _ _ _ (Nat.mod_lt i hp) (Nat.mod_lt j hp) (Nat.mod_lt j' hp) h.2 h'.2
    have hqj : j / ns.prod < n := by rw [Nat.div_lt_iff_lt_mul hp]; exact hj
    have hqj' : j' / ns.prod < n := by rw [Nat.div_lt_iff_lt_mul hp]; exact hj'
    have hd : j / ns.prod = j' / ns.prod := by
      have e : (i / ns.prod + j / ns.prod) ≡ (i / ns.prod + j' / ns.prod) [MOD n] := by
        rw [Nat.ModEq, h.1, h'.1]
      have e' := Nat.ModEq.add_left_cancel' _ e
      rw [Nat.ModEq, Nat.mod_eq_of_lt hqj, Nat.mod_eq_of_lt hqj'] at e'
      exact e'
    rw [← Nat.div_add_mod j ns.prod, ← Nat.div_add_mod j' ns.prod, hm, hd]

theorem neg_neg' (dims : List ℕ) (i : ℕ) (hi : i < dims.prod) : neg dims (neg dims i) = i :=
  opposite_unique dims (neg dims i) _ _ (neg_lt dims i hi) (neg_lt _ _ (neg_lt dims i hi)) hi
    (opposite_neg _ _ (neg_lt dims i hi)) (opposite_symm _ _ _ (opposite_neg dims i hi))

/-! ## The momentum loop -/

theorem sign_mul_self (p : Parity) : p.sign * p.sign = 1 := by cases p <;> simp [Parity.sign]

/-- State of the momentum loop after the indices below `m`. -/
noncomputable def momState (dims : List ℕ) (p : Parity) (d : Data) (m : ℕ) : Data := fun w k a b =>
  if dims.prod ≤ k then d w k a b
  else if neg dims k = k then (if k < m ∧ p = .odd then 0 else d w k a b)
  else if k < neg dims k then
    (if neg dims k < m then p.sign * d w (neg dims k) a b
      else if k < m then d w (neg dims k) a b else d w k a b)
  else (if neg dims k < m ∧ m ≤ k then p.sign * d w k a b else d w k a b)

theorem momState_zero (dims : List ℕ) (p : Parity) (d : Data) : momState dims p d 0 = d := by
  funext w k a b
  simp [momState]

theorem momState_succ (dims : List ℕ) (p : Parity) (d : Data) (m : ℕ) (hm : m < dims.prod) :
    momentumStep dims p (momState dims p d m) m = momState dims p d (m + 1) := by
  have hn := neg_lt dims m hm
  have hnn := neg_neg' dims m hm
  funext w k a b
  unfold momentumStep
  simp only [invIdx_eq dims m hm]
  by_cases hself : m = neg dims m
  · rw [if_pos hself]
    by_cases hk : k = m
    · subst hk
      by_cases hp : p = .odd
      · rw [if_pos hp]
        simp [setK, momState, hm, ← hself, hp]
      · rw [if_neg hp]
        simp [momState, ← hself, hp]
    · have hkn : neg dims k ≠ m ∨ dims.prod ≤ k := by
        rcases lt_or_ge k dims.prod with h | h
        · left
          intro he
          apply hk
          have := neg_neg' dims k h
          rw [he, ← hself] at this
          exact this.symm
        · right; exact h
      have hmain : momState dims p d m w k a b = momState dims p d (m + 1) w k a b := by
        rcases hkn with hkn | hkn
        · have e1 : (k < m + 1) ↔ k < m := by omega
          have e2 : (neg dims k < m + 1) ↔ neg dims k < m := by omega
          have e3 : (m + 1 ≤ k) ↔ m ≤ k := by omega
          simp only [momState, e1, e2, e3]
        · simp [momState, hkn]
      by_cases hp : p = .odd
      · rw [if_pos hp]
        simp only [setK, if_neg hk, hmain]
      · rw [if_neg hp, hmain]
  · rw [if_neg hself]
    have hself' : neg dims m ≠ m := fun h => hself h.symm
    by_cases hk : k = m
    · subst hk
      simp only [setK, if_neg hself, if_true]
      by_cases hlt : k < neg dims k
      · have h1 : ¬ neg dims k < k + 1 := by omega
        have h2 : ¬ neg dims k < k := by omega
        have h3 : ¬ dims.prod ≤ neg dims k := by omega
        have h4 : ¬ dims.prod ≤ k := by omega
        have h5 : ¬ k < k := by omega
        have h6 : k < k + 1 := by omega
        have h7 : neg dims k ≠ k := hself'
        have h8 : k ≠ neg dims k := hself
        simp only [momState, hnn, h1, h2, h3, h4, h5, h6, h7, h8, hlt, if_false, if_true, false_and]
      · have hlt' : neg dims k < k := by omega
        have h1 : ¬ dims.prod ≤ neg dims k := by omega
        have h2 : ¬ dims.prod ≤ k := by omega
        have h3 : ¬ k < k := by omega
        have h4 : ¬ k + 1 ≤ k := by omega
        simp only [momState, hnn, h1, h2, h3, h4, hself, hself', hlt, hlt', if_false, if_true,
          and_false]
    · by_cases hkn : k = neg dims m
      · subst hkn
        simp only [setK, if_true, if_neg hself']
        by_cases hlt : m < neg dims m
        · have h1 : ¬ dims.prod ≤ neg dims m := by omega
          have h2 : ¬ neg dims m < m := by omega
          have h3 : ¬ m < m := by omega
          have h4 : m < m + 1 := by omega
          have h5 : m + 1 ≤ neg dims m := by omega
          simp only [momState, hnn, h1, h2, h3, h4, h5, hself, if_false, if_true, false_and,
            and_true]
        · have hlt' : neg dims m < m := by omega
          have h1 : ¬ dims.prod ≤ neg dims m := by omega
          have h3 : ¬ m < m := by omega
          have h4 : m < m + 1 := by omega
          simp only [momState, hnn, h1, h3, h4, hself, hlt', if_false, if_true]
      · simp only [setK, if_neg hk, if_neg hkn]
        rcases lt_or_ge k dims.prod with hkp | hkp
        · have hne : neg dims k ≠ m := by
            intro he
            apply hkn
            rw [← he, neg_neg' dims k hkp]
          have e1 : (k < m + 1) ↔ k < m := by omega
          have e2 : (neg dims k < m + 1) ↔ neg dims k < m := by omega
          have e3 : (m + 1 ≤ k) ↔ m ≤ k := by omega
          simp only [momState, e1, e2, e3]
        · simp [momState, hkp]

theorem momFold (dims : List ℕ) (p : Parity) (d : Data) (m : ℕ) (hm : m ≤ dims.prod) :
    (List.range m).foldl (momentumStep dims p) d = momState dims p d m := by
  induction m with
  | zero => rw [momState_zero]; rfl
  | succ m ih =>
    rw [List.range_succ, List.foldl_append, ih (by omega), List.foldl_cons, List.foldl_nil,
      momState_succ dims p d m (by omega)]

/-- closed form of the momentum symmetrisation -/
theorem symMomentum_apply (s : Shape) (p : Parity) (d : Data) (w k a b : ℕ) (hk : k < s.nk) :
    symMomentum s p d w k a b =
      if neg s.dims k = k then (if p = .odd then 0 else d w k a b)
      else if k < neg s.dims k then p.sign * d w (neg s.dims k) a b else d w k a b := by
  have hn := neg_lt s.dims k hk
  unfold Shape.nk at hk
  rw [symMomentum, Shape.nk, momFold _ _ _ _ le_rfl, momState]
  have h1 : ¬ s.dims.prod ≤ k := by omega
  simp only [h1, hk, hn, if_false, true_and, and_false, if_true]

/-! ## Orbitals -/

theorem mem_triu (n : ℕ) (u : ℕ × ℕ) : u ∈ triu n ↔ u.1 < n ∧ u.2 < n ∧ u.1 < u.2 := by
  obtain ⟨i, j⟩ := u
  simp only [triu, List.mem_flatMap, List.mem_map, List.mem_filter, List.mem_range,
    decide_eq_true_eq, Prod.mk.injEq]
  constructor
  · rintro ⟨i', hi, j', ⟨hj, hlt⟩, rfl, rfl⟩; exact ⟨hi, hj, hlt⟩
  · rintro ⟨hi, hj, hlt⟩; exact ⟨i, hi, j, ⟨hj, hlt⟩, rfl, rfl⟩

theorem mem_tril (n : ℕ) (u : ℕ × ℕ) : u ∈ tril n ↔ u.1 < n ∧ u.2 < n ∧ u.2 < u.1 := by
  obtain ⟨i, j⟩ := u
  simp only [tril, List.mem_flatMap, List.mem_map, List.mem_filter, List.mem_range,
    decide_eq_true_eq, Prod.mk.injEq]
  constructor
  · rintro ⟨i', hi, j', ⟨hj, hlt⟩, rfl, rfl⟩; exact ⟨hi, hj, hlt⟩
  · rintro ⟨hi, hj, hlt⟩; exact ⟨i, hi, j, ⟨hj, hlt⟩, rfl, rfl⟩

theorem zeroDiagonal_apply (n : ℕ) (d : Data) (w k a b : ℕ) :
    zeroDiagonal n d w k a b = if a = b ∧ a < n then 0 else d w k a b := by
  unfold zeroDiagonal
  induction n with
  | zero => simp
  | succ n ih =>
    rw [List.range_succ, List.foldl_append, List.foldl_cons, List.foldl_nil]
    simp only [setO]
    by_cases h : a = n ∧ b = n
    · obtain ⟨rfl, rfl⟩ := h
      simp
    · rw [if_neg h, ih]
      by_cases h2 : a = b
      · subst h2
        have : a ≠ n := fun e => h ⟨e, e⟩
        have e1 : a < n + 1 ↔ a < n := by omega
        simp only [e1]
      · simp [h2]

/-- closed form of the orbital symmetrisation for at most three orbitals -/
theorem symOrbital_apply (s : Shape) (hs : s.norb ≤ 3) (p : Parity) (d : Data) (w k a b : ℕ)
    (ha : a < s.norb) (hb : b < s.norb) :
    symOrbital s p d w k a b =
      if a < b then d w k b a else if b < a then p.sign * d w k a b
      else if p = .odd then 0 else d w k a b := by
  obtain ⟨h, dims, n⟩ := s
  simp only at hs ha hb
  have e : ∀ d', (if p = .odd then zeroDiagonal n d' else d') w k a b
      = if p = .odd ∧ a = b then 0 else d' w k a b := by
    intro d'
    by_cases hp : p = .odd
    · simp only [hp, if_true, zeroDiagonal_apply, ha, and_true, true_and]
    · simp [hp]
  simp only [symOrbital]
  rw [e]
  rcases n with _ | _ | _ | _ | n
  · omega
  · obtain rfl : a = 0 := by omega
    obtain rfl : b = 0 := by omega
    simp [triu, tril]
  · have z : (triu 2).zip (tril 2) = [((0, 1), (1, 0))] := by decide
    have z' : (triu (0 + 1 + 1)).zip (tril (0 + 1 + 1)) = [((0, 1), (1, 0))] := z
    rw [z']
    have ca : a = 0 ∨ a = 1 := by omega
    have cb : b = 0 ∨ b = 1 := by omega
    rcases ca with rfl | rfl <;> rcases cb with rfl | rfl <;>
      simp [List.foldl_cons, List.foldl_nil, orbitalStep, setO]
  · have z : (triu 3).zip (tril 3) = [((0, 1), (1, 0)), ((0, 2), (2, 0)), ((1, 2), (2, 1))] := by
      decide
    have z' : (triu (0 + 1 + 1 + 1)).zip (tril (0 + 1 + 1 + 1)) =
        [((0, 1), (1, 0)), ((0, 2), (2, 0)), ((1, 2), (2, 1))] := z
    rw [z']
    have ca : a = 0 ∨ a = 1 ∨ a = 2 := by omega
    have cb : b = 0 ∨ b = 1 ∨ b = 2 := by omega
    rcases ca with rfl | rfl | rfl <;> rcases cb with rfl | rfl | rfl <;>
      simp [List.foldl_cons, List.foldl_nil, orbitalStep, setO]
  · omega

/-- the pairing from four orbitals on: the third upper element `(0, 3)` meets `(2, 1)` -/
theorem triu_four (m : ℕ) : ∃ rest, triu (m + 4) = [(0, 1), (0, 2), (0, 3)] ++ rest ∧
    (0, 3) ∉ rest := by
  have hr : List.range (m + 4) = [0, 1, 2, 3] ++ (List.range m).map (4 + ·) := by
    rw [add_comm m 4, List.range_add]; rfl
  refine ⟨(((List.range m).map (4 + ·)).map fun j => (0, j)) ++
    ([1, 2, 3] ++ (List.range m).map (4 + ·)).flatMap fun i =>
      ((List.range (m + 4)).filter fun j => i < j).map fun j => (i, j), ?_, ?_⟩
  · unfold triu
    conv_lhs => rw [hr]
    rw [show ([0, 1, 2, 3] : List ℕ) ++ (List.range m).map (4 + ·)
      = 0 :: ([1, 2, 3] ++ (List.range m).map (4 + ·)) from rfl, List.flatMap_cons,
      ← List.append_assoc]
    congr 1
    · simp [List.filter_map, Function.comp_def]
    · rw [hr]; rfl
  · simp
    omega

theorem tril_four (m : ℕ) : ∃ rest, tril (m + 4) = [(1, 0), (2, 0), (2, 1)] ++ rest := by
  have hr : List.range (m + 4) = [0, 1, 2] ++ (3 :: (List.range m).map (4 + ·)) := by
    rw [add_comm m 4, List.range_add]; rfl
  refine ⟨(3 :: (List.range m).map (4 + ·)).flatMap fun i =>
      ((List.range (m + 4)).filter fun j => j < i).map fun j => (i, j), ?_⟩
  unfold tril
  conv_lhs => rw [hr]
  rw [List.flatMap_append]
  congr 1
  · simp [List.filter_map, Function.comp_def]
    omega
  · rw [hr]

theorem orbFold_stable (p : Parity) (L : List ((ℕ × ℕ) × (ℕ × ℕ)))
    (hu : ∀ x ∈ L, x.1 ≠ (0, 3) ∧ x.1.1 < x.1.2) (hl : ∀ x ∈ L, x.2.2 < x.2.1) (d : Data)
    (w k : ℕ) (h0 : d w k 3 0 = 0) :
    (L.foldl (orbitalStep p) d) w k 0 3 = d w k 0 3 ∧
      (L.foldl (orbitalStep p) d) w k 3 0 = 0 := by
  induction L generalizing d with
  | nil => exact ⟨rfl, h0⟩
  | cons x L ih =>
    rw [List.foldl_cons]
    obtain ⟨⟨u1, u2⟩, l1, l2⟩ := x
    have hux := hu _ List.mem_cons_self
    have hlx := hl _ List.mem_cons_self
    simp only [ne_eq, Prod.mk.injEq] at hux hlx
    have a1 : ¬ (0 = u1 ∧ 3 = u2) := by rintro ⟨rfl, rfl⟩; exact hux.1 ⟨rfl, rfl⟩
    have a2 : ¬ (0 = l1 ∧ 3 = l2) := by omega
    have a3 : ¬ (3 = u1 ∧ 0 = u2) := by omega
    have a4 : ¬ (l1 = u1 ∧ l2 = u2) := by omega
    have e1 : orbitalStep p d ((u1, u2), (l1, l2)) w k 0 3 = d w k 0 3 := by
      simp only [orbitalStep, setO, if_neg a1, if_neg a2]
    have e2 : orbitalStep p d ((u1, u2), (l1, l2)) w k 3 0 = 0 := by
      simp only [orbitalStep, setO, if_neg a3, if_neg a4, h0]
      split_ifs with h
      · rw [← h.1, ← h.2, h0, mul_zero]
      · rfl
    have := ih (fun x hx => hu x (List.mem_cons_of_mem _ hx))
      (fun x hx => hl x (List.mem_cons_of_mem _ hx)) (orbitalStep p d ((u1, u2), (l1, l2))) e2
    rw [e1] at this
    exact this

/-- from four orbitals on, entry `(0, 3)` is copied from `(2, 1)` -/
theorem symOrbital_four (s : Shape) (hs : 4 ≤ s.norb) (p : Parity) (d : Data) (w k : ℕ)
    (h0 : d w k 3 0 = 0) :
    symOrbital s p d w k 0 3 = d w k 2 1 ∧ symOrbital s p d w k 3 0 = 0 := by
  obtain ⟨h, dims, n⟩ := s
  obtain ⟨m, rfl⟩ : ∃ m, n = m + 4 := ⟨n - 4, by simp only at hs; omega⟩
  obtain ⟨ru, hu, hnot⟩ := triu_four m
  obtain ⟨rl, hl⟩ := tril_four m
  have hz : (triu (m + 4)).zip (tril (m + 4)) =
      [((0, 1), (1, 0)), ((0, 2), (2, 0)), ((0, 3), (2, 1))] ++ ru.zip rl := by
    rw [hu, hl]; rfl
  have hst := orbFold_stable p (ru.zip rl)
    (by
      intro x hx
      have hm := (List.of_mem_zip (show (x.1, x.2) ∈ ru.zip rl from hx)).1
      refine ⟨fun e => hnot (e ▸ hm), ?_⟩
      have : x.1 ∈ triu (m + 4) := by rw [hu]; exact List.mem_append_right _ hm
      exact ((mem_triu _ _).1 this).2.2)
    (by
      intro x hx
      have hm := (List.of_mem_zip (show (x.1, x.2) ∈ ru.zip rl from hx)).2
      have : x.2 ∈ tril (m + 4) := by rw [hl]; exact List.mem_append_right _ hm
      exact ((mem_tril _ _).1 this).2.2)
    ([((0, 1), (1, 0)), ((0, 2), (2, 0)), ((0, 3), (2, 1))].foldl (orbitalStep p) d) w k
    (by simp [List.foldl_cons, List.foldl_nil, orbitalStep, setO, h0])
  have e : ∀ d' : Data, ∀ a b : ℕ, a ≠ b →
      (if p = .odd then zeroDiagonal (m + 4) d' else d') w k a b = d' w k a b := by
    intro d' a b hab
    by_cases hp : p = .odd
    · simp [hp, zeroDiagonal_apply, hab]
    · simp [hp]
  simp only [symOrbital]
  rw [e _ _ _ (by omega), e _ _ _ (by omega), hz, List.foldl_append]
  refine ⟨hst.1.trans ?_, hst.2⟩
  simp [List.foldl_cons, List.foldl_nil, orbitalStep, setO]

/-! ## Each symmetrisation acts on its own index only -/

/-- acts on the frequency index only -/
def MonoW (f : Data → Data) : Prop :=
  ∀ w, ∃ c : ℂ, ∃ w', ∀ d k a b, f d w k a b = c * d w' k a b

/-- acts on the momentum index only -/
def MonoK (f : Data → Data) : Prop :=
  ∀ k, ∃ c : ℂ, ∃ k', ∀ d w a b, f d w k a b = c * d w k' a b

/-- acts on the orbital indices only -/
def MonoO (f : Data → Data) : Prop :=
  ∀ a b, ∃ c : ℂ, ∃ a' b', ∀ d w k, f d w k a b = c * d w k a' b'

theorem monoW (s : Shape) (p : Parity) : MonoW (symFrequency s p) := by
  intro w
  by_cases h : w < s.h
  · exact ⟨p.sign, s.h + (s.h - 1 - w), fun d k a b => by simp [symFrequency, h]⟩
  · exact ⟨1, s.h + (w - s.h), fun d k a b => by simp [symFrequency, h]⟩

theorem monoK_foldl {ι : Type} (g : Data → ι → Data) (hg : ∀ i, MonoK fun d => g d i)
    (L : List ι) : MonoK fun d => L.foldl g d := by
  induction L with
  | nil => exact fun k => ⟨1, k, fun d w a b => by simp⟩
  | cons i L ih =>
    intro k
    obtain ⟨c, k', h⟩ := ih k
    obtain ⟨c', k'', h'⟩ := hg i k'
    refine ⟨c * c', k'', fun d w a b => ?_⟩
    have := h (g d i) w a b
    simp only [List.foldl_cons] at this ⊢
    rw [this, mul_assoc]
    exact congrArg _ (h' d w a b)

theorem monoO_foldl {ι : Type} (g : Data → ι → Data) (hg : ∀ i, MonoO fun d => g d i)
    (L : List ι) : MonoO fun d => L.foldl g d := by
  induction L with
  | nil => exact fun a b => ⟨1, a, b, fun d w k => by simp⟩
  | cons i L ih =>
    intro a b
    obtain ⟨c, a', b', h⟩ := ih a b
    obtain ⟨c', a'', b'', h'⟩ := hg i a' b'
    refine ⟨c * c', a'', b'', fun d w k => ?_⟩
    have := h (g d i) w k
    simp only [List.foldl_cons] at this ⊢
    rw [this, mul_assoc]
    exact congrArg _ (h' d w k)

theorem monoK (s : Shape) (p : Parity) : MonoK (symMomentum s p) := by
  refine monoK_foldl (momentumStep s.dims p) (fun i k => ?_) _
  unfold momentumStep
  by_cases h : i = invIdx s.dims i
  · simp only [if_pos h]
    by_cases hp : p = .odd
    · simp only [if_pos hp, setK]
      by_cases hk : k = i
      · exact ⟨0, k, fun d w a b => by simp [hk]⟩
      · exact ⟨1, k, fun d w a b => by simp [hk]⟩
    · exact ⟨1, k, fun d w a b => by simp [hp]⟩
  · simp only [if_neg h, setK]
    by_cases hk : k = invIdx s.dims i
    · exact ⟨p.sign, invIdx s.dims i, fun d w a b => by simp [hk, Ne.symm h]⟩
    · by_cases hk' : k = i
      · exact ⟨1, invIdx s.dims i, fun d w a b => by rw [if_neg hk, if_pos hk', one_mul]⟩
      · exact ⟨1, k, fun d w a b => by simp [hk, hk']⟩

theorem monoO_setO (l : ℕ × ℕ) (c : ℂ) (u : ℕ × ℕ) :
    MonoO fun d => setO d l fun w k => c * d w k u.1 u.2 := by
  intro a b
  by_cases h : a = l.1 ∧ b = l.2
  · exact ⟨c, u.1, u.2, fun d w k => by simp [setO, h]⟩
  · exact ⟨1, a, b, fun d w k => by simp [setO, h]⟩

theorem monoO_comp {f g : Data → Data} (hf : MonoO f) (hg : MonoO g) : MonoO fun d => f (g d) := by
  intro a b
  obtain ⟨c, a', b', h⟩ := hf a b
  obtain ⟨c', a'', b'', h'⟩ := hg a' b'
  exact ⟨c * c', a'', b'', fun d w k => by
    change f (g d) w k a b = _
    rw [h, h', mul_assoc]⟩

theorem monoO (s : Shape) (p : Parity) : MonoO (symOrbital s p) := by
  have h1 : MonoO fun d => ((triu s.norb).zip (tril s.norb)).foldl (orbitalStep p) d := by
    refine monoO_foldl (orbitalStep p) (fun ul => ?_) _
    have := monoO_comp (monoO_setO ul.2 p.sign ul.2) (monoO_setO ul.1 1 ul.2)
    simpa [orbitalStep] using this
  have h2 : MonoO fun d => zeroDiagonal s.norb d := by
    refine monoO_foldl _ (fun i => ?_) _
    have := monoO_setO (i, i) 0 (i, i)
    simpa using this
  unfold symOrbital
  by_cases hp : p = .odd
  · simp only [if_pos hp]
    exact monoO_comp h2 h1
  · simp only [if_neg hp]
    exact h1

theorem overallSign_of {l : List ℤ} {x : ℤ} (h : ∀ y ∈ l, y = x) (hl : l ≠ []) :
    overallSign l = some x := by
  have : l = List.replicate l.length x := List.eq_replicate_of_mem h
  unfold overallSign
  rw [this, List.replicate_dedup (by simpa using hl)]

theorem close_refl {atol : ℝ} (h : 0 ≤ atol) (x : ℂ) : close atol x x := by
  unfold close
  rw [sub_self, norm_zero]
  positivity

theorem not_close_neg {atol : ℝ} {x : ℂ} (h : ¬ close atol x 0) (h0 : 0 ≤ atol) :
    ¬ close atol x (-x) := by
  unfold close at *
  rw [sub_zero, norm_zero, mul_zero, add_zero, not_le] at h
  rw [sub_neg_eq_add, norm_neg, not_le, show x + x = 2 * x by ring, Complex.norm_mul]
  have : ‖(2 : ℂ)‖ = 2 := by simp
  rw [this]
  have := norm_nonneg x
  linarith

end Verif.Symmetries
