import Verif.FreqConv.Model
import Mathlib.Tactic.Linarith
import Mathlib.Tactic.NormNum
import Mathlib.Tactic.FinCases
import Mathlib.Algebra.BigOperators.Group.List.Basic

/-!
# C29 - C31: frequency notations, block conversion, Wick factorised input
-/

namespace Verif.FreqConv

variable {F : Type*} [Field F] {o : Type*} [DecidableEq o]

set_option linter.unusedSectionVars false

/-! ## C29 -/

/-- The documented parametrisations `/repo/doc/theory/vertex.rst:94-130`: the four fermionic frequencies
`(ν₁, ν₂, ν₃, ν₄)` belonging to `(ω, ν, ν')`, as indices. -/
structure Quad where
  n1 : ℤ
  n2 : ℤ
  n3 : ℤ
  n4 : ℤ

def docPH (w n np : ℤ) : Quad := ⟨n, n + w, np + w, np⟩
def docPHbar (w n np : ℤ) : Quad := ⟨n, np, np + w, n + w⟩
def docPP (w n np : ℤ) : Quad := ⟨n, np, w - n - 1, w - np - 1⟩
def docPPx (w n np : ℤ) : Quad := ⟨n, w - np - 1, w - n - 1, np⟩

/-- the documentation conserves frequency: `ν₁ + ν₃ = ν₂ + ν₄` in all four parametrisations -/
theorem C29_doc_conserves (w n np : ℤ) :
    (docPH w n np).n4 = (docPH w n np).n1 - (docPH w n np).n2 + (docPH w n np).n3 ∧
    (docPHbar w n np).n4 = (docPHbar w n np).n1 - (docPHbar w n np).n2 + (docPHbar w n np).n3 ∧
    (docPP w n np).n4 = (docPP w n np).n1 - (docPP w n np).n2 + (docPP w n np).n3 ∧
    (docPPx w n np).n4 = (docPPx w n np).n1 - (docPPx w n np).n2 + (docPPx w n np).n3 := by
  simp only [docPH, docPHbar, docPP, docPPx]
  refine ⟨?_, ?_, ?_, ?_⟩ <;> ring

/-- "`f` reads its argument at the documented frequencies `q`" -/
def ReadsAt (f : G3 o F → G3 o F) (q : ℤ → ℤ → ℤ → Quad) : Prop :=
  ∀ g2 w n np, f g2 w n np = g2 (q w n np).n1 (q w n np).n2 (q w n np).n3

/-- C29 for PH and PH_bar. -/
theorem C29_PH_partial : ReadsAt (from3nuPH : G3 o F → G3 o F) docPH := fun _ _ _ _ => rfl

theorem C29_PHbar_partial : ReadsAt (from3nuPHbar : G3 o F → G3 o F) docPHbar := fun _ _ _ _ => rfl

/-- C29, PP: the code does not read at the documented frequencies. -/
theorem C29_PP_violated : ¬ ReadsAt (from3nuPP : G3 (Fin 1) ℚ → G3 (Fin 1) ℚ) docPP := by
  intro h
  have := congrFun (congrFun (congrFun (congrFun
    (h (fun _ _ n3 _ _ _ _ => (n3 : ℚ)) 0 0 1) 0) 0) 0) 0
  simp [from3nuPP, docPP] at this

/-- nor at the crossed ones -/
theorem C29_PPx_violated : ¬ ReadsAt (from3nuPP : G3 (Fin 1) ℚ → G3 (Fin 1) ℚ) docPPx := by
  intro h
  have := congrFun (congrFun (congrFun (congrFun
    (h (fun _ n2 _ _ _ _ _ => (n2 : ℚ)) 0 0 1) 0) 0) 0) 0
  simp [from3nuPP, docPPx] at this
  norm_num at this

/-- what the PP routine does satisfy: it reads at the documented frequencies exactly on the diagonal
`ν = ν'`. -/
theorem C29_PP_partial (g2 : G3 o F) (w n : ℤ) :
    from3nuPP g2 w n n = g2 (docPP w n n).n1 (docPP w n n).n2 (docPP w n n).n3 := rfl

/-- A re-indexing is lossless iff every entry of the three frequency function is read exactly once. -/
def Lossless (f : G3 o F → G3 o F) : Prop :=
  ∃ back : G3 o F → G3 o F, (∀ g, back (f g) = g) ∧ ∀ g, f (back g) = g

/-- C29: all three re-indexings are bijections of functions on the infinite frequency lattice. -/
theorem C29_lossless :
    Lossless (from3nuPH : G3 o F → G3 o F) ∧ Lossless (from3nuPHbar : G3 o F → G3 o F) ∧
    Lossless (from3nuPP : G3 o F → G3 o F) := by
  refine ⟨⟨fun g n1 n2 n3 => g (n2 - n1) n1 (n3 - (n2 - n1)), fun g => ?_, fun g => ?_⟩,
    ⟨fun g n1 n2 n3 => g (n3 - n2) n1 n2, fun g => ?_, fun g => ?_⟩,
    ⟨fun g n1 n2 n3 => g (n3 + n2 + 1) n1 n2, fun g => ?_, fun g => ?_⟩⟩
  all_goals
    funext x y z
    simp only [from3nuPH, from3nuPHbar, from3nuPP]
    congr 1 <;> ring_nf

/-! ## C30 -/

section C30

private theorem foldl_write_other (f : Mem o F → ((ℤ × ℤ × ℤ) × (o × o × o × o)) → Mem o F)
    (hf : ∀ m p q, q ≠ p → f m p q = m q) (pts : List ((ℤ × ℤ × ℤ) × (o × o × o × o))) (m : Mem o F)
    (q) (hq : q ∉ pts) : pts.foldl f m q = m q := by
  induction pts generalizing m with
  | nil => rfl
  | cons p t ih =>
    simp only [List.mem_cons, not_or] at hq
    rw [List.foldl_cons, ih _ hq.2, hf _ _ _ hq.1]

/-- the first loop -/
theorem aabb_value (bg : o → o → ℤ → ℤ → ℤ → F) (pts : List ((ℤ × ℤ × ℤ) × (o × o × o × o)))
    (m : Mem o F) (n1 n2 n3 : ℤ) (a b c d : o) (h : ((n1, n2, n3), (a, b, c, d)) ∈ pts) :
    pts.foldl (aabbStep bg) m ((n1, n2, n3), (a, b, c, d))
      = if a = b ∧ c = d then bg a c n1 n2 n3 else 0 := by
  induction pts generalizing m with
  | nil => simp at h
  | cons p t ih =>
    rw [List.foldl_cons]
    by_cases ht : ((n1, n2, n3), (a, b, c, d)) ∈ t
    · exact ih _ ht
    · have hp : p = ((n1, n2, n3), (a, b, c, d)) := by
        rcases List.mem_cons.1 h with h | h
        · exact h.symm
        · exact absurd h ht
      rw [foldl_write_other _ (by
        intro m p q hq
        simp only [aabbStep, write, if_neg hq]) _ _ _ ht]
      subst hp
      simp only [aabbStep, write, if_true]
      by_cases h1 : a = b <;> by_cases h2 : c = d <;> simp [h1, h2]

/-- the second, in-place loop: although it overwrites the memory it reads, the result is as if it had read
the old memory, for every order of the loop over distinct points. -/
theorem abba_value (pts : List ((ℤ × ℤ × ℤ) × (o × o × o × o))) (hn : pts.Nodup)
    (m : Mem o F) (n1 n2 n3 : ℤ) (a b c d : o) (h : ((n1, n2, n3), (a, b, c, d)) ∈ pts) :
    pts.foldl abbaStep m ((n1, n2, n3), (a, b, c, d))
      = m ((n1, n2, n3), (a, b, c, d))
        + if a = d ∧ b = c ∧ a ≠ c then -m ((n1, n1 - n2 + n3, n3), (a, a, c, c)) else 0 := by
  -- AABB entries with A ≠ B are never changed
  have keep : ∀ (l : List ((ℤ × ℤ × ℤ) × (o × o × o × o))) (m : Mem o F) (x y : o) (p), x ≠ y →
      l.foldl abbaStep m (p, (x, x, y, y)) = m (p, (x, x, y, y)) := by
    intro l
    induction l with
    | nil => intros; rfl
    | cons q t ih =>
      intro m x y p hxy
      rw [List.foldl_cons, ih _ x y p hxy]
      simp only [abbaStep, write]
      split_ifs with h1
      · subst h1; simp_all
      · subst h1; simp_all
      · subst h1; simp_all
      · subst h1; simp_all
      · subst h1; simp_all
      · subst h1; simp_all
      · subst h1; simp_all
      · subst h1; simp_all
      · rfl
  induction pts generalizing m with
  | nil => simp at h
  | cons q t ih =>
    rw [List.nodup_cons] at hn
    rw [List.foldl_cons]
    rcases List.mem_cons.1 h with h' | h'
    · subst h'
      rw [foldl_write_other _ (by
        intro m p q hq
        simp only [abbaStep, write, if_neg hq]) _ _ _ hn.1]
      simp only [abbaStep, write, if_true]
      by_cases h1 : a = d
      · by_cases h2 : b = c
        · by_cases h3 : a = c
          · simp [h1, h2, h3]; simp_all
          · subst h1 h2; simp [h3]
        · simp [h1, h2]
      · simp [h1]
    · have hne : ((n1, n2, n3), (a, b, c, d)) ≠ q := fun e => hn.1 (e ▸ h')
      rw [ih hn.2 _ h']
      have e1 : abbaStep m q ((n1, n2, n3), (a, b, c, d)) = m ((n1, n2, n3), (a, b, c, d)) := by
        simp only [abbaStep, write, if_neg hne]
      rw [e1]
      congr 1
      split_ifs with hc
      · have := keep [q] m a c (n1, n1 - n2 + n3, n3) hc.2.2
        simp only [List.foldl_cons, List.foldl_nil] at this
        rw [this]
      · rfl

/-- C30: the complete content of the tensor valued function; a crossing partner outside the mesh counts as
zero. -/
theorem C30_block_to_tensor (pts pts' : List ((ℤ × ℤ × ℤ) × (o × o × o × o))) (hn : pts'.Nodup)
    (bg : o → o → ℤ → ℤ → ℤ → F) (n1 n2 n3 : ℤ) (a b c d : o)
    (h : ((n1, n2, n3), (a, b, c, d)) ∈ pts) (h' : ((n1, n2, n3), (a, b, c, d)) ∈ pts') :
    blockAABBtoTensor pts pts' bg ((n1, n2, n3), (a, b, c, d))
      = if a = b ∧ c = d then bg a c n1 n2 n3
        else if a = d ∧ b = c then
          (if ((n1, n1 - n2 + n3, n3), (a, a, c, c)) ∈ pts then -bg a c n1 (n1 - n2 + n3) n3 else 0)
        else 0 := by
  rw [blockAABBtoTensor, abba_value pts' hn _ n1 n2 n3 a b c d h', aabb_value bg pts _ n1 n2 n3 a b c d h]
  have part : (pts.foldl (aabbStep bg) fun _ => 0) ((n1, n1 - n2 + n3, n3), (a, a, c, c))
      = if ((n1, n1 - n2 + n3, n3), (a, a, c, c)) ∈ pts then bg a c n1 (n1 - n2 + n3) n3 else 0 := by
    split_ifs with hm
    · rw [aabb_value bg pts _ _ _ _ _ _ _ _ hm]; simp
    · rw [foldl_write_other _ (by
        intro m p q hq
        simp only [aabbStep, write, if_neg hq]) _ _ _ hm]
  rw [part]
  by_cases h1 : a = b <;> by_cases h2 : c = d <;> by_cases h3 : a = d <;> by_cases h4 : b = c <;>
    by_cases h5 : a = c <;> simp_all
  all_goals split_ifs <;> simp

/-- C30: fermionic crossing.  Exchanging the two annihilators changes the sign, for every pair of
different blocks, whenever both points are on the mesh. -/
theorem C30_crossing (pts : List ((ℤ × ℤ × ℤ) × (o × o × o × o))) (hn : pts.Nodup)
    (bg : o → o → ℤ → ℤ → ℤ → F) (n1 n2 n3 : ℤ) (a b c d : o) (hac : a ≠ c)
    (h : ((n1, n2, n3), (a, b, c, d)) ∈ pts)
    (h' : ((n1, n1 - n2 + n3, n3), (a, d, c, b)) ∈ pts) :
    blockAABBtoTensor pts pts bg ((n1, n2, n3), (a, b, c, d))
      = -blockAABBtoTensor pts pts bg ((n1, n1 - n2 + n3, n3), (a, d, c, b)) := by
  rw [C30_block_to_tensor pts pts hn bg _ _ _ _ _ _ _ h h,
    C30_block_to_tensor pts pts hn bg _ _ _ _ _ _ _ h' h']
  have e : n1 - (n1 - n2 + n3) + n3 = n2 := by ring
  rw [e]
  by_cases h1 : a = b <;> by_cases h2 : c = d <;> by_cases h3 : a = d <;> by_cases h4 : b = c
  all_goals try (subst h1)
  all_goals try (subst h2)
  all_goals simp_all
  · intro e; exact absurd e.symm h2
  · intro e; exact absurd e.symm h4

/-- the hypotheses are met: two orbitals, one frequency triple with a different partner -/
example : ∃ pts : List ((ℤ × ℤ × ℤ) × (Fin 2 × Fin 2 × Fin 2 × Fin 2)), pts.Nodup ∧
    ((0, 1, 2), (0, 0, 1, 1)) ∈ pts ∧ ((0, 0 - 1 + 2, 2), (0, 1, 1, 0)) ∈ pts :=
  ⟨[((0, 1, 2), (0, 0, 1, 1)), ((0, 1, 2), (0, 1, 1, 0))], by decide, by decide, by decide⟩

/-! `block_iw_AB_to_matrix_valued` -/

/-- start of block number `k` -/
def offset (bs : List (Block F)) (k : ℕ) : ℕ := ((bs.take k).map Block.size).sum

private theorem blockFold (bs : List (Block F)) : ∀ (s : ℕ × (ℕ → ℕ → F)),
    (bs.foldl blockStep s).1 = s.1 + (bs.map Block.size).sum ∧
    (∀ i j, i < s.1 ∨ j < s.1 → (bs.foldl blockStep s).2 i j = s.2 i j) ∧
    (∀ k (hk : k < bs.length) i j, i < bs[k].size → j < bs[k].size →
      (bs.foldl blockStep s).2 (s.1 + offset bs k + i) (s.1 + offset bs k + j) = bs[k].val i j) ∧
    (∀ i j, s.1 ≤ i → s.1 ≤ j → s.2 i j = 0 →
      (¬ ∃ k, ∃ _ : k < bs.length, (s.1 + offset bs k ≤ i ∧ i < s.1 + offset bs k + bs[k].size) ∧
        (s.1 + offset bs k ≤ j ∧ j < s.1 + offset bs k + bs[k].size)) →
      (bs.foldl blockStep s).2 i j = 0) := by
  induction bs with
  | nil =>
    intro s
    refine ⟨by simp, fun _ _ _ => rfl, fun k hk => absurd hk (by simp), fun i j _ _ h _ => h⟩
  | cons b t ih =>
    intro s
    obtain ⟨i1, i2, i3, i4⟩ := ih (blockStep s b)
    have hs : (blockStep s b).1 = s.1 + b.size := rfl
    refine ⟨?_, ?_, ?_, ?_⟩
    · rw [List.foldl_cons, i1, hs, List.map_cons, List.sum_cons]; omega
    · intro i j hij
      rw [List.foldl_cons, i2 i j (by rw [hs]; omega)]
      simp only [blockStep]
      rw [if_neg (by omega)]
    · intro k hk i j hi hj
      rw [List.foldl_cons]
      cases k with
      | zero =>
        simp only [offset, List.take_zero, List.map_nil, List.sum_nil, add_zero, List.getElem_cons_zero]
          at hi hj ⊢
        rw [i2 _ _ (by rw [hs]; omega)]
        simp only [blockStep]
        rw [if_pos (by omega), Nat.add_sub_cancel_left, Nat.add_sub_cancel_left]
      | succ k =>
        simp only [List.getElem_cons_succ] at hi hj ⊢
        have hk' : k < t.length := by simpa using hk
        have e : offset (b :: t) (k + 1) = b.size + offset t k := by
          simp [offset]
        have := i3 k hk' i j hi hj
        rw [hs, Nat.add_assoc s.1 b.size, ← e] at this
        exact this
    · intro i j hi hj h0 hne
      rw [List.foldl_cons]
      have hsplit : ¬ ((s.1 ≤ i ∧ i < s.1 + b.size) ∧ (s.1 ≤ j ∧ j < s.1 + b.size)) := by
        intro h
        apply hne
        refine ⟨0, by simp, ?_⟩
        simpa [offset] using h
      have h0' : (blockStep s b).2 i j = 0 := by
        simp only [blockStep]
        rw [if_neg hsplit, h0]
      by_cases hlt : i < s.1 + b.size ∨ j < s.1 + b.size
      · rw [i2 i j (by rw [hs]; exact hlt), h0']
      · apply i4 i j (by rw [hs]; omega) (by rw [hs]; omega) h0'
        rintro ⟨k, hk, hh⟩
        apply hne
        refine ⟨k + 1, by simpa using hk, ?_⟩
        have e : offset (b :: t) (k + 1) = b.size + offset t k := by simp [offset]
        simp only [List.getElem_cons_succ, e]
        rw [hs] at hh
        omega

/-- C30: the single particle block Green's function becomes block diagonal: the total size is the sum of the
block sizes, the entries of block `k` sit at its offset, and everything else is zero. -/
theorem C30_block_diagonal (bs : List (Block F)) :
    (blockToMatrix bs).1 = (bs.map Block.size).sum ∧
    (∀ k (hk : k < bs.length) i j, i < bs[k].size → j < bs[k].size →
      (blockToMatrix bs).2 (offset bs k + i) (offset bs k + j) = bs[k].val i j) ∧
    (∀ i j, (¬ ∃ k, ∃ _ : k < bs.length, (offset bs k ≤ i ∧ i < offset bs k + bs[k].size) ∧
        (offset bs k ≤ j ∧ j < offset bs k + bs[k].size)) → (blockToMatrix bs).2 i j = 0) := by
  obtain ⟨_, _, h3, h4⟩ := blockFold bs (0, fun _ _ => 0)
  refine ⟨?_, ?_, ?_⟩
  · simp only [blockToMatrix]
    have : ∀ (l : List (Block F)) (x : ℕ), l.foldl (fun n b => n + b.size) x
        = x + (l.map Block.size).sum := by
      intro l
      induction l with
      | nil => simp
      | cons b t ih => intro x; simp [ih, Nat.add_assoc]
    rw [this, Nat.zero_add]
  · intro k hk i j hi hj
    have := h3 k hk i j hi hj
    simpa [blockToMatrix] using this
  · intro i j hne
    have := h4 i j (Nat.zero_le _) (Nat.zero_le _) rfl (by simpa using hne)
    simpa [blockToMatrix] using this

end C30

/-! ## C31 -/

/-- Wick product: `⟨c†_a(ν₁) c_b(ν₂) c†_c(ν₃) c_d(ν₄)⟩` of a free system, as function of the first three
frequencies (`ν₄ = ν₁ - ν₂ + ν₃`). -/
def wick {o : Type*} (beta : F) (g : G1 o F) : G3 o F := fun n1 n2 n3 a b c d =>
  beta * kr n1 n2 * g n1 b a * g n3 d c - beta * kr n2 n3 * g n1 d a * g n3 b c

/-- the Wick product is antisymmetric under exchange of the annihilators -/
theorem wick_crossing (beta : F) (g : G1 o F) (n1 n2 n3 : ℤ) (a b c d : o) :
    wick beta g n1 n2 n3 a b c d = -wick beta g n1 (n1 - n2 + n3) n3 a d c b := by
  have h1 : (n1 = n1 - n2 + n3) ↔ (n2 = n3) := by omega
  have h2 : (n1 - n2 + n3 = n3) ↔ (n1 = n2) := by omega
  simp only [wick, kr, h1, h2]
  ring

/-- C31 (PH): for Wick factorised input in the PH notation the generalised susceptibility is the bubble. -/
theorem C31_PH (beta : F) (g : G1 o F) :
    chiPH beta g (from3nuPH (wick beta g)) = chi0PH beta g := by
  funext w n np a b c d
  have h1 : (n = n + w) ↔ (w = 0) := by omega
  have h2 : (n + w = np + w) ↔ (n = np) := by omega
  simp only [chiPH, chi0PH, from3nuPH, wick, kr, h1, h2]
  by_cases hw : w = 0
  · subst hw
    by_cases hn : n = np
    · subst hn
      simp only [if_true, add_zero, zero_add]; ring
    · simp [hn]
  · by_cases hn : n = np
    · subst hn
      simp only [if_neg hw, if_true, add_comm w n]; ring
    · simp [hn, hw]

/-- C31: more generally the vertex part of an arbitrary `g2 = wick + connected` is passed on unchanged. -/
theorem C31_PH_connected (beta : F) (g : G1 o F) (conn : G3 o F) (w n np : ℤ) (a b c d : o) :
    chiPH beta g (from3nuPH fun n1 n2 n3 a b c d =>
        wick beta g n1 n2 n3 a b c d + conn n1 n2 n3 a b c d) w n np a b c d
      = chi0PH beta g w n np a b c d + conn n (n + w) (np + w) a b c d := by
  have := congrFun (congrFun (congrFun (congrFun (congrFun (congrFun (congrFun (C31_PH beta g) w) n)
    np) a) b) c) d
  rw [← this]
  simp only [chiPH, from3nuPH]
  ring

/-- C31 (PP): the PP pair of routines has the property in the crossed parametrisation `PPx` of the
documentation ... -/
theorem C31_PPx_partial (beta : F) (g : G1 o F) :
    chiPP beta g (fun w n np => wick beta g (docPPx w n np).n1 (docPPx w n np).n2 (docPPx w n np).n3)
      = chi0PP beta g := by
  funext w n np a b c d
  have h1 : (n = w - np - 1) ↔ (n + np + 1 = w) := by omega
  have h2 : (w - np - 1 = w - n - 1) ↔ (n = np) := by omega
  simp only [chiPP, chi0PP, docPPx, wick, kr, h1, h2]
  by_cases hw : n + np + 1 = w
  · have : w - n - 1 = np := by omega
    rw [this]
    by_cases hn : n = np
    · subst hn; simp only [if_pos hw, if_true]; ring
    · simp only [if_pos hw, if_neg hn]; ring
  · simp only [if_neg hw]; ring

/-- ... but not for the function produced by `from_3nu_PP`: a one orbital counterexample at `ω = 0`,
`ν = ν_0`, `ν' = -ν_0`. -/
theorem C31_PP_violated :
    chiPP 1 (fun n _ _ => (n : ℚ) + 2) (from3nuPP (wick 1 fun n (_ _ : Fin 1) => (n : ℚ) + 2))
      ≠ chi0PP 1 (fun n _ _ => (n : ℚ) + 2) := by
  intro h
  have := congrFun (congrFun (congrFun (congrFun (congrFun (congrFun (congrFun h 0) 0) (-1)) 0) 0) 0) 0
  simp [chiPP, chi0PP, from3nuPP, wick, kr] at this
  norm_num at this

/-- ... and not for the documented PP parametrisation. -/
theorem C31_PPdoc_violated :
    chiPP 1 (fun n _ _ => (n : ℚ) + 2) (fun w n np => wick 1 (fun n (_ _ : Fin 1) => (n : ℚ) + 2)
        (docPP w n np).n1 (docPP w n np).n2 (docPP w n np).n3)
      ≠ chi0PP 1 (fun n _ _ => (n : ℚ) + 2) := by
  intro h
  have := congrFun (congrFun (congrFun (congrFun (congrFun (congrFun (congrFun h 0) 0) (-1)) 0) 0) 0) 0
  simp [chiPP, chi0PP, docPP, wick, kr] at this
  norm_num at this

end Verif.FreqConv
