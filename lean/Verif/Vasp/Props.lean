import Verif.Vasp.Model
import Verif.KMesh.Props

/-!
# C96: cRPA interactions end up at their momenta and orbitals
-/

noncomputable section

set_option linter.unusedSectionVars false

namespace Verif.Vasp

open Verif.KMesh

theorem getD_eq {l : List ℕ} {i : ℕ} (h : i < l.length) : l.getD i 0 = l[i] := by
  rw [List.getD_eq_getElem?_getD, List.getElem?_eq_getElem h, Option.getD_some]

/-! ## Reading the files -/

/-- `block` lists, in any order, the values `V q` at every quadruple of orbitals of `norb` orbitals. -/
structure FullBlock (norb : ℕ) (V : Q3 → (Fin 4 → ℕ) → ℂ) (q : Q3) (block : List Row) : Prop where
  /-- number of rows -/
  length : block.length = norb ^ 4
  /-- every row states a value -/
  row : ∀ r ∈ block, r.q = q ∧ (∀ i, 1 ≤ r.idx i ∧ r.idx i ≤ norb) ∧ r.val = V q fun i => r.idx i - 1
  /-- every quadruple occurs -/
  all : ∀ I : Fin 4 → ℕ, (∀ i, I i < norb) → ∃ r ∈ block, r.idx = fun i => I i + 1

theorem fillU_eq (norb : ℕ) (F : (Fin 4 → ℕ) → ℂ) (block : List Row)
    (h : ∀ r ∈ block, (∀ i, 1 ≤ r.idx i) ∧ r.val = F fun i => r.idx i - 1) (u : (Fin 4 → ℕ) → ℂ) (I : Fin 4 → ℕ)
    (hI : (∃ r ∈ block, r.idx = fun i => I i + 1) ∨ u I = F I) :
    block.foldl (fun u r => Function.update u (fun i => pyPred norb (r.idx i)) r.val) u I = F I := by
  induction block generalizing u with
  | nil =>
    rcases hI with ⟨r, hr, -⟩ | h
    · cases hr
    · exact h
  | cons r l ih =>
    rw [List.foldl_cons]
    refine ih (fun r' hr' => h r' (List.mem_cons_of_mem _ hr')) _ ?_
    obtain ⟨h1, h2⟩ := h r List.mem_cons_self
    have hp : (fun i => pyPred norb (r.idx i)) = fun i => r.idx i - 1 := by
      funext i
      rw [pyPred, if_neg (by have := h1 i; omega)]
    rw [hp]
    by_cases hI' : (fun i => r.idx i - 1) = I
    · right
      subst hI'
      rw [Function.update_self, h2]
    · rw [Function.update_of_ne (Ne.symm hI')]
      rcases hI with ⟨r', hr', e⟩ | h
      · rcases List.mem_cons.1 hr' with rfl | hr'
        · exact absurd (by rw [e]; rfl) hI'
        · exact .inl ⟨r', hr', e⟩
      · exact .inr h

theorem readBlock_ok {norb : ℕ} (hn : 0 < norb) {V : Q3 → (Fin 4 → ℕ) → ℂ} {q : Q3} {block : List Row}
    (hb : FullBlock norb V q block) (orb : List ℕ) (ho : ∀ x ∈ orb, x < norb) :
    ∃ U, readBlock norb orb block = .ok (q, U) ∧ ∀ a b c d, a < orb.length → b < orb.length → c < orb.length →
      d < orb.length → U a b c d = V q ![orb.getD b 0, orb.getD a 0, orb.getD d 0, orb.getD c 0] := by
  have hget : ∀ a, a < orb.length → orb.getD a 0 < norb := by
    intro a ha
    rw [getD_eq ha]
    exact ho _ (List.getElem_mem ha)
  cases hbl : block with
  | nil =>
    have := hb.length
    rw [hbl] at this
    have : 0 < norb ^ 4 := pow_pos hn 4
    simp_all
  | cons r0 l =>
    have h0 : r0.q = q := (hb.row r0 (by rw [hbl]; exact List.mem_cons_self)).1
    refine ⟨fun a b c d => fillU norb (r0 :: l) ![orb.getD b 0, orb.getD a 0, orb.getD d 0, orb.getD c 0], ?_, ?_⟩
    · unfold readBlock
      dsimp only
      rw [if_pos, if_neg, h0]
      · rintro ⟨x, hx, hle⟩
        have := ho x hx
        omega
      · intro r hr a
        rw [(hb.row r (by rw [hbl]; exact hr)).1, h0, sub_self, abs_zero]
        norm_num
    · intro a b c d ha hb' hc hd
      refine fillU_eq norb (V q) (r0 :: l) (fun r hr => ?_) 0 _ (.inl ?_)
      · rw [← hbl] at hr
        exact ⟨fun i => ((hb.row r hr).2.1 i).1, (hb.row r hr).2.2⟩
      · rw [← hbl]
        refine hb.all _ fun i => ?_
        fin_cases i
        · exact hget b hb'
        · exact hget a ha
        · exact hget d hd
        · exact hget c hc

theorem foldr_max_le (l : List ℕ) (m : ℕ) (h : ∀ x ∈ l, x ≤ m) : l.foldr max 0 ≤ m := by
  induction l with
  | nil => exact Nat.zero_le _
  | cons x l ih =>
    exact max_le (h x List.mem_cons_self) (ih fun y hy => h y (List.mem_cons_of_mem _ hy))

theorem le_foldr_max (l : List ℕ) (x : ℕ) (h : x ∈ l) : x ≤ l.foldr max 0 := by
  induction l with
  | nil => cases h
  | cons y l ih =>
    rcases List.mem_cons.1 h with rfl | h
    · exact le_max_left _ _
    · exact (ih h).trans (le_max_right _ _)

theorem norbOf_eq {norb : ℕ} (rows : List Row) (h : ∀ r ∈ rows, ∀ i, r.idx i ≤ norb)
    (h1 : ∃ r ∈ rows, r.idx 0 = norb) : norbOf rows = norb := by
  refine le_antisymm (foldr_max_le _ _ fun x hx => ?_) ?_
  · obtain ⟨r, hr, hx⟩ := List.mem_flatMap.1 hx
    have := h r hr
    simp only [List.mem_cons, List.not_mem_nil, or_false] at hx
    rcases hx with rfl | rfl | rfl | rfl <;> exact this _
  · obtain ⟨r, hr, rfl⟩ := h1
    exact le_foldr_max _ _ (List.mem_flatMap.2 ⟨r, hr, by simp⟩)

/-- C96: the number of orbitals is the largest of all indices in the files, so no index exceeds it and no element is written
outside of the array. -/
theorem C96_orbitals (rows : List Row) : (∀ r ∈ rows, ∀ i, r.idx i ≤ norbOf rows) ∧
    (norbOf rows = 0 ∨ ∃ r ∈ rows, ∃ i, r.idx i = norbOf rows) ∧
    (norbOf rows ≠ 0 → ∀ r ∈ rows, ∀ i, pyPred (norbOf rows) (r.idx i) < norbOf rows) := by
  have h1 : ∀ r ∈ rows, ∀ i, r.idx i ≤ norbOf rows := by
    intro r hr i
    refine le_foldr_max _ _ (List.mem_flatMap.2 ⟨r, hr, ?_⟩)
    fin_cases i <;> simp
  refine ⟨h1, ?_, fun h0 r hr i => ?_⟩
  · have : ∀ l : List ℕ, l.foldr max 0 = 0 ∨ l.foldr max 0 ∈ l := by
      intro l
      induction l with
      | nil => exact .inl rfl
      | cons x l ih =>
        rw [List.foldr_cons]
        rcases max_choice x (l.foldr max 0) with h | h
        · rw [h]
          exact .inr List.mem_cons_self
        · rw [h]
          rcases ih with h | h
          · exact .inl h
          · exact .inr (List.mem_cons_of_mem _ h)
    rcases this (rows.flatMap fun r => [r.idx 0, r.idx 1, r.idx 2, r.idx 3]) with h | h
    · exact .inl h
    · right
      obtain ⟨r, hr, hx⟩ := List.mem_flatMap.1 h
      simp only [List.mem_cons, List.not_mem_nil, or_false] at hx
      rcases hx with h | h | h | h <;> exact ⟨r, hr, _, h.symm⟩
  · have := h1 r hr i
    unfold pyPred
    split_ifs <;> omega

theorem flatten_drop_take (m : ℕ) (blocks : List (List Row)) (h : ∀ b ∈ blocks, b.length = m) (i : ℕ)
    (hi : i < blocks.length) : (blocks.flatten.drop (i * m)).take m = blocks[i] := by
  induction blocks generalizing i with
  | nil => simp at hi
  | cons b l ih =>
    have hb := h b List.mem_cons_self
    rw [List.flatten_cons]
    cases i with
    | zero =>
      rw [zero_mul, List.drop_zero, List.getElem_cons_zero, ← hb, List.take_left']
      rfl
    | succ i =>
      rw [show (i + 1) * m = b.length + i * m by rw [hb]; ring, List.drop_length_add_append,
        List.getElem_cons_succ]
      exact ih (fun b hb => h b (List.mem_cons_of_mem _ hb)) i _

theorem length_flatten_const (m : ℕ) (blocks : List (List Row)) (h : ∀ b ∈ blocks, b.length = m) :
    blocks.flatten.length = blocks.length * m := by
  induction blocks with
  | nil => simp
  | cons b l ih =>
    rw [List.flatten_cons, List.length_append, ih fun b hb => h b (List.mem_cons_of_mem _ hb),
      h b List.mem_cons_self, List.length_cons]
    ring

theorem mapM_ok {α β : Type} (f : α → Except String β) (P : α → β → Prop) (l : List α)
    (h : ∀ x ∈ l, ∃ y, f x = .ok y ∧ P x y) : ∃ ys, l.mapM f = .ok ys ∧ List.Forall₂ P l ys := by
  induction l with
  | nil => exact ⟨[], rfl, .nil⟩
  | cons x l ih =>
    obtain ⟨y, hy, hp⟩ := h x List.mem_cons_self
    obtain ⟨ys, hys, hps⟩ := ih fun x hx => h x (List.mem_cons_of_mem _ hx)
    refine ⟨y :: ys, ?_, .cons hp hps⟩
    rw [List.mapM_cons, hy, hys]
    rfl

theorem mem_firstOnly (l : List (Q3 × U4)) (x : Q3 × U4) (h : x ∈ firstOnly l) : x ∈ l := by
  induction l with
  | nil => exact h
  | cons y l ih =>
    rw [firstOnly] at h
    rcases List.mem_cons.1 h with rfl | h
    · exact List.mem_cons_self
    · exact List.mem_cons_of_mem _ (ih (List.mem_filter.1 h).1)

theorem firstOnly_keys (l : List (Q3 × U4)) (q : Q3) :
    (∃ U, (q, U) ∈ firstOnly l) ↔ ∃ U, (q, U) ∈ l := by
  induction l with
  | nil => rfl
  | cons y l ih =>
    constructor
    · rintro ⟨U, h⟩
      exact ⟨U, mem_firstOnly _ _ h⟩
    · rintro ⟨U, h⟩
      by_cases hq : q = y.1
      · subst hq
        exact ⟨y.2, by rw [firstOnly]; exact List.mem_cons_self⟩
      · rcases List.mem_cons.1 h with rfl | h
        · exact absurd rfl hq
        · obtain ⟨U', h'⟩ := ih.2 ⟨U, h⟩
          refine ⟨U', ?_⟩
          rw [firstOnly]
          refine List.mem_cons_of_mem _ (List.mem_filter.2 ⟨h', ?_⟩)
          simpa using hq

theorem firstOnly_nodup (l : List (Q3 × U4)) : (firstOnly l).Pairwise fun x y => x.1 ≠ y.1 := by
  induction l with
  | nil => exact .nil
  | cons y l ih =>
    rw [firstOnly]
    refine List.pairwise_cons.2 ⟨fun z hz => ?_, ih.filter _⟩
    have := (List.mem_filter.1 hz).2
    simp only [ne_eq, decide_not, Bool.not_eq_eq_eq_not, Bool.not_true, decide_eq_false_iff_not] at this
    exact fun h => this h.symm

theorem unique_mem (l : List (Q3 × U4)) (x : Q3 × U4) (h : x ∈ unique l) : x ∈ l :=
  mem_firstOnly l x ((List.perm_insertionSort _ _).mem_iff.1 h)

theorem unique_keys (l : List (Q3 × U4)) (q : Q3) : (∃ U, (q, U) ∈ unique l) ↔ ∃ U, (q, U) ∈ l := by
  rw [← firstOnly_keys l]
  exact exists_congr fun U => (List.perm_insertionSort _ _).mem_iff

theorem unique_sorted (l : List (Q3 × U4)) : (unique l).Pairwise fun x y => toLex x.1 < toLex y.1 := by
  classical
  have h1 : (unique l).Pairwise fun x y => toLex x.1 ≤ toLex y.1 := by
    unfold unique
    have : Std.Total (fun x y : Q3 × U4 => toLex x.1 ≤ toLex y.1) := ⟨fun x y => le_total _ _⟩
    have : IsTrans (Q3 × U4) (fun x y : Q3 × U4 => toLex x.1 ≤ toLex y.1) := ⟨fun x y z => le_trans⟩
    exact List.pairwise_insertionSort _ _
  have h2 : (unique l).Pairwise fun x y => x.1 ≠ y.1 := by
    refine ((List.perm_insertionSort _ _).pairwise_iff ?_).2 (firstOnly_nodup l)
    exact fun h => Ne.symm h
  exact h1.imp₂ (fun x y h h' => lt_of_le_of_ne h fun e => h' (toLex.injective e)) h2

/-- C96: from files that list all matrix elements of every momentum, in any order of files, of momenta and of the rows
of a momentum, the parser returns every momentum once, with `U_abcd` the element `b a d c` of the file (the index order
of VASP), restricted to the orbitals asked for. -/
theorem C96_read_partial {norb : ℕ} (hn : 0 < norb) (V : Q3 → (Fin 4 → ℕ) → ℂ) (qs : List Q3) (hq : qs ≠ [])
    (files : List (List Row)) (hf : ∀ f ∈ files, 2 ≤ f.length) (blocks : List (List Row))
    (hfb : files.flatten = blocks.flatten) (hb : List.Forall₂ (FullBlock norb V) qs blocks)
    (orbsub : List ℕ) (ho : ∀ x ∈ orbsub, x < norb) :
    ∃ out, readVasp true files orbsub = .ok out ∧
      out.Pairwise (fun x y => toLex x.1 < toLex y.1) ∧
      (∀ q, (∃ U, (q, U) ∈ out) ↔ q ∈ qs) ∧
      (orbsub = [] → ∀ q U, (q, U) ∈ out → ∀ a b c d, a < norb → b < norb → c < norb → d < norb →
        U a b c d = V q ![b, a, d, c]) ∧
      (orbsub ≠ [] → ∀ q U, (q, U) ∈ out → ∀ a b c d, (ha : a < orbsub.length) → (hb : b < orbsub.length) →
        (hc : c < orbsub.length) → (hd : d < orbsub.length) →
        U a b c d = V q ![orbsub[b], orbsub[a], orbsub[d], orbsub[c]]) := by
  have hload : files.flatMap loadFile = files.flatten := by
    rw [List.flatMap_def]
    congr 1
    conv_rhs => rw [← List.map_id files]
    exact List.map_congr_left fun f hm => if_pos (hf f hm)
  have hlen : ∀ b ∈ blocks, b.length = norb ^ 4 := by
    intro b hm
    obtain ⟨i, hi, rfl⟩ := List.getElem_of_mem hm
    exact (hb.get (by rw [hb.length_eq]; exact hi) hi).length
  have hrow : ∀ r ∈ blocks.flatten, ∀ i, r.idx i ≤ norb := by
    intro r hr
    obtain ⟨b, hm, hr⟩ := List.mem_flatten.1 hr
    obtain ⟨i, hi, rfl⟩ := List.getElem_of_mem hm
    exact fun j => (((hb.get (by rw [hb.length_eq]; exact hi) hi).row r hr).2.1 j).2
  have h0 : 0 < blocks.length := by
    rw [← hb.length_eq]
    exact List.length_pos_iff.2 hq
  have hex : ∃ r ∈ blocks.flatten, r.idx 0 = norb := by
    obtain ⟨r, hr, e⟩ := (hb.get (by rw [hb.length_eq]; exact h0) h0).all (fun _ => norb - 1) (fun _ => by omega)
    refine ⟨r, List.mem_flatten.2 ⟨_, List.getElem_mem h0, hr⟩, ?_⟩
    rw [e]
    show norb - 1 + 1 = norb
    omega
  have hno := norbOf_eq _ hrow hex
  have hne : blocks.flatten.isEmpty = false := by
    obtain ⟨r, hr, -⟩ := hex
    rw [List.isEmpty_eq_false_iff_exists_mem]
    exact ⟨r, hr⟩
  set orb := if orbsub = [] then List.range norb else orbsub with horb
  have ho' : ∀ x ∈ orb, x < norb := by
    intro x hx
    rw [horb] at hx
    split_ifs at hx
    · exact List.mem_range.1 hx
    · exact ho x hx
  obtain ⟨l, hl, hp⟩ := mapM_ok
    (fun i => readBlock norb orb ((blocks.flatten.drop (i * norb ^ 4)).take (norb ^ 4)))
    (fun i x => ∃ q ∈ qs[i]?, x.1 = q ∧ ∀ a b c d, a < orb.length → b < orb.length → c < orb.length →
      d < orb.length → x.2 a b c d = V q ![orb.getD b 0, orb.getD a 0, orb.getD d 0, orb.getD c 0])
    (List.range blocks.length) (by
      intro i hi
      have hi := List.mem_range.1 hi
      have hiq : i < qs.length := by rw [hb.length_eq]; exact hi
      obtain ⟨U, hU, hv⟩ := readBlock_ok hn (hb.get hiq hi) orb ho'
      refine ⟨(_, U), ?_, _, List.getElem?_eq_getElem hiq, rfl, hv⟩
      rw [flatten_drop_take _ _ hlen i hi]
      exact hU)
  have hmem : ∀ x ∈ l, x.1 ∈ qs ∧ ∀ a b c d, a < orb.length → b < orb.length → c < orb.length →
      d < orb.length → x.2 a b c d = V x.1 ![orb.getD b 0, orb.getD a 0, orb.getD d 0, orb.getD c 0] := by
    intro x hx
    obtain ⟨i, hi, rfl⟩ := List.getElem_of_mem hx
    obtain ⟨q, hqi, e, hv⟩ := hp.get (by rw [hp.length_eq]; exact hi) hi
    rw [List.get_eq_getElem] at e
    rw [e]
    exact ⟨List.mem_of_getElem? hqi, hv⟩
  have hkeys : ∀ q ∈ qs, ∃ U, (q, U) ∈ l := by
    intro q hq
    obtain ⟨i, hi, rfl⟩ := List.getElem_of_mem hq
    have hib : i < (List.range blocks.length).length := by rw [List.length_range, ← hb.length_eq]; exact hi
    have hil : i < l.length := by rw [← hp.length_eq]; exact hib
    obtain ⟨q, hqi, e, -⟩ := hp.get hib hil
    simp only [List.get_eq_getElem, List.getElem_range] at hqi e
    rw [List.getElem?_eq_getElem hi] at hqi
    have hqi := Option.some.inj hqi
    refine ⟨l[i].2, ?_⟩
    rw [hqi, ← e]
    exact List.getElem_mem hil
  refine ⟨unique l, ?_, unique_sorted l, fun q => ?_, fun he q U hm a b c d ha hb' hc hd => ?_,
    fun he q U hm a b c d ha hb' hc hd => ?_⟩
  · unfold readVasp
    dsimp only
    rw [hload, hfb, hne, hno, if_neg (by simp), if_neg hn.ne', if_neg (by simp), length_flatten_const _ _ hlen,
      Nat.mul_div_cancel _ (pow_pos hn 4), hl]
  · rw [unique_keys]
    exact ⟨fun ⟨U, h⟩ => (hmem _ h).1, hkeys q⟩
  · have hlo : orb = List.range norb := by rw [horb, if_pos he]
    have := (hmem (q, U) (unique_mem _ _ hm)).2 a b c d
    dsimp only at this
    rw [hlo] at this
    rw [this (by simpa using ha) (by simpa using hb') (by simpa using hc) (by simpa using hd)]
    have hg : ∀ x, x < norb → (List.range norb).getD x 0 = x := by
      intro x hx
      rw [getD_eq (by simpa using hx), List.getElem_range]
    rw [hg a ha, hg b hb', hg c hc, hg d hd]
  · have hlo : orb = orbsub := by rw [horb, if_neg he]
    have := (hmem (q, U) (unique_mem _ _ hm)).2 a b c d
    dsimp only at this
    rw [hlo] at this
    rw [this ha hb' hc hd, getD_eq ha, getD_eq hb', getD_eq hc,
      getD_eq hd]

/-! ## Placing the momenta on the mesh -/

/-- the momentum `q` of the file is, up to less than half a mesh spacing, the mesh point `i` or one of its images with
relative coordinates between `-1` and `1` (not included) -/
def Represents (nk : Fin 3 → ℕ) (q : Q3) (i : Fin 3 → ℕ) : Prop :=
  ∃ m : Fin 3 → ℤ, ∀ a, |q a - m a / nk a| < 1 / (2 * nk a) ∧ -(nk a : ℤ) ≤ m a ∧ m a < nk a ∧ (nk a : ℤ) ∣ m a - i a

theorem fileIndex_eq (nk : Fin 3 → ℕ) (hn : ∀ a, 0 < nk a) (q : Q3) (i : Fin 3 → ℕ) (hi : ∀ a, i a < nk a)
    (h : Represents nk q i) : fileIndex nk q = fun a => (i a : ℤ) := by
  obtain ⟨m, hm⟩ := h
  have hk := C93_index nk hn m q fun a => (hm a).1
  funext a
  have hka : npRound (q a * nk a) = m a := congrFun hk a
  obtain ⟨-, h1, h2, c, hc⟩ := hm a
  have hia := hi a
  have hna := hn a
  show (if npRound (q a * nk a) < 0 then npRound (q a * nk a) + (nk a : ℤ) else npRound (q a * nk a)) = (i a : ℤ)
  rw [hka]
  split_ifs with hneg
  · have hc1 : c = -1 := by
      have : (nk a : ℤ) * c < 0 := by omega
      have hc0 : c < 0 := by
        by_contra hcc
        have : 0 ≤ (nk a : ℤ) * c := mul_nonneg (by omega) (by omega)
        omega
      have : -2 < c := by
        by_contra hcc
        have : (nk a : ℤ) * c ≤ nk a * (-2) := mul_le_mul_of_nonneg_left (by omega) (by omega)
        omega
      omega
    rw [hc1] at hc
    omega
  · have hc1 : c = 0 := by
      have h3 : -1 < c := by
        by_contra hcc
        have : (nk a : ℤ) * c ≤ nk a * (-1) := mul_le_mul_of_nonneg_left (by omega) (by omega)
        omega
      have h4 : c < 1 := by
        by_contra hcc
        have : (nk a : ℤ) * 1 ≤ nk a * c := mul_le_mul_of_nonneg_left (by omega) (by omega)
        omega
      omega
    rw [hc1] at hc
    omega

theorem meshIndex_ravel (kunits : Matrix (Fin 3) (Fin 3) ℝ) (hd : kunits.det ≠ 0) (nk : Fin 3 → ℕ)
    (hn : ∀ a, 0 < nk a) (i : Fin 3 → ℕ) (hi : ∀ a, i a < nk a) :
    meshIndex kunits nk (ravel nk i) = fun a => (i a : ℤ) := by
  obtain ⟨x, hx, hk⟩ := C93_mesh_index kunits hd nk hn i hi
  rw [relative, if_neg hd] at hx
  rw [meshIndex, ← hk, ← Option.some.inj hx]

theorem fileIndex_iff (nk : Fin 3 → ℕ) (hn : ∀ a, 0 < nk a) (q : Q3)
    (h : ∃ i, (∀ a, i a < nk a) ∧ Represents nk q i) (i : Fin 3 → ℕ) (hi : ∀ a, i a < nk a) :
    fileIndex nk q = (fun a => (i a : ℤ)) ↔ Represents nk q i := by
  refine ⟨fun he => ?_, fileIndex_eq nk hn q i hi⟩
  obtain ⟨i', hi', hr⟩ := h
  have h1 := fileIndex_eq nk hn q i' hi' hr
  rw [he] at h1
  have : i = i' := by
    funext a
    exact_mod_cast congrFun h1 a
  rw [this]
  exact hr

theorem convert_fold (kunits : Matrix (Fin 3) (Fin 3) ℝ) (nk : Fin 3 → ℕ) (U : List U4) :
    ∀ (Q : List Q3) (s : ℕ) (u : ℕ → U4) (_ : s + Q.length ≤ U.length),
    ∃ u', (open Classical in (Q.zipIdx s).foldlM (fun u q =>
      match U[q.2]? with
      | some v => Except.ok fun p => if p < prod3 nk ∧ meshIndex kunits nk p = fileIndex nk q.1 then v else u p
      | none => if ∃ p, p < prod3 nk ∧ meshIndex kunits nk p = fileIndex nk q.1 then Except.error "IndexError"
        else Except.ok u) u) = .ok u' ∧ ∀ p < prod3 nk,
      ((∀ q ∈ Q, fileIndex nk q ≠ meshIndex kunits nk p) → u' p = u p) ∧
      ∀ (j : ℕ) (hj : j < Q.length) (hs : s + j < U.length), fileIndex nk Q[j] = meshIndex kunits nk p →
        (∀ (j' : ℕ) (hj' : j' < Q.length), j < j' → fileIndex nk Q[j'] ≠ meshIndex kunits nk p) → u' p = U[s + j] := by
  intro Q
  induction Q with
  | nil =>
    intro s u _
    exact ⟨u, rfl, fun p _ => ⟨fun _ => rfl, fun j hj => absurd hj (by simp)⟩⟩
  | cons q Q ih =>
    intro s u hs
    rw [List.length_cons] at hs
    have hsU : s < U.length := by omega
    classical
    obtain ⟨u', hu', hp⟩ := ih (s + 1)
      (fun p => if p < prod3 nk ∧ meshIndex kunits nk p = fileIndex nk q then U[s] else u p) (by omega)
    refine ⟨u', ?_, fun p hpm => ⟨fun hno => ?_, ?_⟩⟩
    · rw [List.zipIdx_cons, List.foldlM_cons]
      simp only [List.getElem?_eq_getElem hsU]
      exact hu'
    · rw [(hp p hpm).1 fun q' hq' => hno q' (List.mem_cons_of_mem _ hq'), if_neg]
      exact fun h => hno q List.mem_cons_self h.2.symm
    · intro j hj hsj he hl
      cases j with
      | zero =>
        rw [(hp p hpm).1, if_pos]
        · rfl
        · exact ⟨hpm, he.symm⟩
        · intro q' hq'
          obtain ⟨j', hj', rfl⟩ := List.getElem_of_mem hq'
          exact hl (j' + 1) (by simpa using hj') (by omega)
      | succ j =>
        have hj' : j < Q.length := by simpa using hj
        have := (hp p hpm).2 j hj' (by omega) he fun j' hj'' hlt =>
          hl (j' + 1) (by simpa using hj'') (by omega)
        rw [this]
        congr 1
        omega

/-- C96: every mesh point gets the tensor of the momentum in the list that represents it (the last one if there are
several); a mesh point that no momentum represents gets zero.

Missing: momenta with a relative coordinate of one or more in absolute value, see `C96_boundary_violated`. -/
theorem C96_mesh_partial (kunits : Matrix (Fin 3) (Fin 3) ℝ) (hd : kunits.det ≠ 0) (nk : Fin 3 → ℕ)
    (hn : ∀ a, 0 < nk a) (U : List U4) (Q : List Q3) (hl : U.length = Q.length)
    (hQ : ∀ q ∈ Q, ∃ i, (∀ a, i a < nk a) ∧ Represents nk q i) :
    ∃ u, convert kunits nk U Q = .ok u ∧ ∀ i : Fin 3 → ℕ, (∀ a, i a < nk a) →
      ((∀ q ∈ Q, ¬ Represents nk q i) → u (ravel nk i) = 0) ∧
      ∀ (j : ℕ) (hj : j < Q.length), Represents nk Q[j] i →
        (∀ (j' : ℕ) (hj' : j' < Q.length), j < j' → ¬ Represents nk Q[j'] i) → u (ravel nk i) = U[j] := by
  obtain ⟨u, hu, hp⟩ := convert_fold kunits nk U Q 0 0 (by omega)
  refine ⟨u, ?_, fun i hi => ?_⟩
  · unfold convert
    rw [if_neg hd]
    exact hu
  · have hpi := hp (ravel nk i) (ravel_lt nk i hi)
    rw [meshIndex_ravel kunits hd nk hn i hi] at hpi
    refine ⟨fun h => hpi.1 fun q hq he => h q hq ((fileIndex_iff nk hn q (hQ q hq) i hi).1 he), ?_⟩
    intro j hj hr hlast
    have := hpi.2 j hj (by omega) (fileIndex_eq nk hn _ i hi hr) fun j' hj' hlt he =>
      hlast j' hj' hlt ((fileIndex_iff nk hn _ (hQ _ (List.getElem_mem hj')) i hi).1 he)
    rw [this]
    congr 1
    omega

/-! ## The whole parser -/

theorem keys_eq (l m : List (Q3 × U4)) (hl : l.Pairwise fun x y => toLex x.1 < toLex y.1)
    (hm : m.Pairwise fun x y => toLex x.1 < toLex y.1)
    (h : ∀ q, (∃ U, (q, U) ∈ l) ↔ ∃ U, (q, U) ∈ m) : l.map Prod.fst = m.map Prod.fst := by
  have hl' : (l.map Prod.fst).Pairwise fun x y : Q3 => toLex x < toLex y := List.pairwise_map.2 hl
  have hm' : (m.map Prod.fst).Pairwise fun x y : Q3 => toLex x < toLex y := List.pairwise_map.2 hm
  have i1 : Std.Irrefl fun x y : Q3 => toLex x < toLex y := ⟨fun x => lt_irrefl _⟩
  have i2 : Std.Antisymm fun x y : Q3 => toLex x < toLex y := ⟨fun x y h h' => absurd (h.trans h') (lt_irrefl _)⟩
  refine List.Pairwise.eq_of_mem_iff hl' hm' fun q => ?_
  simpa using h q

/-- C96: the whole parser. If the three sets of files hold all elements of `WU`, `WV`, `WR` at the same momenta, the
bare interaction at a mesh point is `WV` of the momentum that represents it, the screened one is `WU + (WV - WR)`, with
the elements in the order `b a d c`. `o` lists the orbitals kept. -/
theorem C96_total_partial {norb : ℕ} (hn : 0 < norb) (kunits : Matrix (Fin 3) (Fin 3) ℝ) (hd : kunits.det ≠ 0)
    (nk : Fin 3 → ℕ) (hk : ∀ a, 0 < nk a) (WU WV WR : Q3 → (Fin 4 → ℕ) → ℂ)
    (qU qV qR : List Q3) (h0 : qU ≠ []) (hUV : ∀ q, q ∈ qU ↔ q ∈ qV) (hVR : ∀ q, q ∈ qV ↔ q ∈ qR)
    (hQ : ∀ q ∈ qU, ∃ i, (∀ a, i a < nk a) ∧ Represents nk q i)
    (fU fV fR bU bV bR : List (List Row)) (hfU : ∀ f ∈ fU, 2 ≤ f.length) (hfV : ∀ f ∈ fV, 2 ≤ f.length)
    (hfR : ∀ f ∈ fR, 2 ≤ f.length) (eU : fU.flatten = bU.flatten) (eV : fV.flatten = bV.flatten)
    (eR : fR.flatten = bR.flatten) (hbU : List.Forall₂ (FullBlock norb WU) qU bU)
    (hbV : List.Forall₂ (FullBlock norb WV) qV bV) (hbR : List.Forall₂ (FullBlock norb WR) qR bR)
    (orbsub : List ℕ) (ho : ∀ x ∈ orbsub, x < norb) (m : ℕ) (o : ℕ → ℕ)
    (hom : (orbsub = [] ∧ m = norb ∧ ∀ x, o x = x) ∨
      (orbsub ≠ [] ∧ m = orbsub.length ∧ ∀ (x : ℕ) (h : x < orbsub.length), o x = orbsub[x])) :
    ∃ v u, readTriqs true kunits nk fU fV fR orbsub = .ok (v, u) ∧
      ∀ i : Fin 3 → ℕ, (∀ a, i a < nk a) → ∀ q ∈ qU, Represents nk q i → (∀ q' ∈ qU, Represents nk q' i → q' = q) →
      ∀ a b c d, a < m → b < m → c < m → d < m →
        v (ravel nk i) a b c d = WV q ![o b, o a, o d, o c] ∧
        u (ravel nk i) a b c d = WU q ![o b, o a, o d, o c]
          + (WV q ![o b, o a, o d, o c] - WR q ![o b, o a, o d, o c]) := by
  have key : ∀ (V : Q3 → (Fin 4 → ℕ) → ℂ) (qs : List Q3) (f b : List (List Row)), qs ≠ [] →
      (∀ x ∈ f, 2 ≤ x.length) → f.flatten = b.flatten → List.Forall₂ (FullBlock norb V) qs b →
      ∃ out, readVasp true f orbsub = .ok out ∧ out.Pairwise (fun x y => toLex x.1 < toLex y.1) ∧
        (∀ q, (∃ U, (q, U) ∈ out) ↔ q ∈ qs) ∧ ∀ q U, (q, U) ∈ out → ∀ a b c d, a < m → b < m → c < m → d < m →
          U a b c d = V q ![o b, o a, o d, o c] := by
    intro V qs f b h1 h2 h3 h4
    obtain ⟨out, r1, r2, r3, r4, r5⟩ := C96_read_partial hn V qs h1 f h2 b h3 h4 orbsub ho
    refine ⟨out, r1, r2, r3, ?_⟩
    rcases hom with ⟨e1, rfl, e3⟩ | ⟨e1, rfl, e3⟩
    · simpa only [e3] using r4 e1
    · intro q U hm a b c d ha hb hc hd
      rw [r5 e1 q U hm a b c d ha hb hc hd, e3 a ha, e3 b hb, e3 c hc, e3 d hd]
  have hV0 : qV ≠ [] := by
    obtain ⟨q, hq⟩ := List.exists_mem_of_ne_nil _ h0
    exact List.ne_nil_of_mem ((hUV q).1 hq)
  have hR0 : qR ≠ [] := by
    obtain ⟨q, hq⟩ := List.exists_mem_of_ne_nil _ hV0
    exact List.ne_nil_of_mem ((hVR q).1 hq)
  obtain ⟨ur, ru, su, ku, vu⟩ := key WU qU fU bU h0 hfU eU hbU
  obtain ⟨vr, rv, sv, kv, vv⟩ := key WV qV fV bV hV0 hfV eV hbV
  obtain ⟨wr, rr, sr, kr, wv⟩ := key WR qR fR bR hR0 hfR eR hbR
  have kU : ur.map Prod.fst = wr.map Prod.fst :=
    keys_eq _ _ su sr fun q => (ku q).trans ((hUV q).trans ((hVR q).trans (kr q).symm))
  have kV : vr.map Prod.fst = wr.map Prod.fst :=
    keys_eq _ _ sv sr fun q => (kv q).trans ((hVR q).trans (kr q).symm)
  have lU : ur.length = wr.length := by simpa using congrArg List.length kU
  have lV : vr.length = wr.length := by simpa using congrArg List.length kV
  have hQ' : ∀ q ∈ wr.map Prod.fst, ∃ i, (∀ a, i a < nk a) ∧ Represents nk q i := by
    intro q hq
    obtain ⟨x, hx, rfl⟩ := List.mem_map.1 hq
    exact hQ _ ((hUV _).2 ((hVR _).2 ((kr _).1 ⟨x.2, hx⟩)))
  obtain ⟨v, cv, hv⟩ := C96_mesh_partial kunits hd nk hk (vr.map Prod.snd) (wr.map Prod.fst) (by simpa using lV) hQ'
  obtain ⟨u, cu, hu⟩ := C96_mesh_partial kunits hd nk hk
    (List.zipWith (fun x y => x + y) (ur.map Prod.snd)
      (List.zipWith (fun x y => x - y) (vr.map Prod.snd) (wr.map Prod.snd))) (wr.map Prod.fst)
    (by simp [lU, lV]) hQ'
  refine ⟨v, u, ?_, ?_⟩
  · unfold readTriqs
    rw [ru, rv, rr]
    simp only [bind, Except.bind, npBin]
    rw [if_pos (by simpa using lV)]
    dsimp only
    rw [if_pos (by simp [lU, lV])]
    dsimp only
    rw [cv]
    dsimp only
    rw [cu]
    rfl
  · intro i hi q hq hr hun a b c d ha hb hc hd
    obtain ⟨UR, hUR⟩ := (kr q).2 ((hVR _).1 ((hUV _).1 hq))
    obtain ⟨j, hj, ej⟩ := List.getElem_of_mem hUR
    have hjm : j < (wr.map Prod.fst).length := by simpa using hj
    have ejq : (wr.map Prod.fst)[j] = q := by rw [List.getElem_map, ej]
    have hlast : ∀ (j' : ℕ) (hj' : j' < (wr.map Prod.fst).length), j < j' → ¬ Represents nk (wr.map Prod.fst)[j'] i := by
      intro j' hj' hlt hr'
      have hj'' : j' < wr.length := by simpa using hj'
      have h1 : (wr.map Prod.fst)[j'] = q := by
        refine hun _ ?_ hr'
        rw [List.getElem_map]
        exact (hUV _).2 ((hVR _).2 ((kr _).1 ⟨wr[j'].2, List.getElem_mem hj''⟩))
      have h2 := List.pairwise_iff_getElem.1 sr j j' hj hj'' hlt
      rw [List.getElem_map] at h1
      rw [ej, h1] at h2
      exact lt_irrefl _ h2
    have hrj : Represents nk (wr.map Prod.fst)[j] i := by rw [ejq]; exact hr
    have hju : j < ur.length := by omega
    have hjv : j < vr.length := by omega
    have qu : ur[j].1 = q := by
      have : (ur.map Prod.fst)[j]'(by simpa using hju) = (wr.map Prod.fst)[j] := by simp only [kU]
      rw [ejq, List.getElem_map] at this
      exact this
    have qv : vr[j].1 = q := by
      have : (vr.map Prod.fst)[j]'(by simpa using hjv) = (wr.map Prod.fst)[j] := by simp only [kV]
      rw [ejq, List.getElem_map] at this
      exact this
    have gu := vu ur[j].1 ur[j].2 (List.getElem_mem hju) a b c d ha hb hc hd
    have gv := vv vr[j].1 vr[j].2 (List.getElem_mem hjv) a b c d ha hb hc hd
    have gr := wv wr[j].1 wr[j].2 (List.getElem_mem hj) a b c d ha hb hc hd
    rw [qu] at gu
    rw [qv] at gv
    rw [ej] at gr
    have e1 := (hv i hi).2 j hjm hrj hlast
    have e2 := (hu i hi).2 j hjm hrj hlast
    rw [e1, e2]
    simp only [List.getElem_map, List.getElem_zipWith]
    refine ⟨gv, ?_⟩
    show ur[j].2 a b c d + (vr[j].2 a b c d - wr[j].2 a b c d) = _
    rw [gu, gv, ← gr, ej]

end Verif.Vasp
