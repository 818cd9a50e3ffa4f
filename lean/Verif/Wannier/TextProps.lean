import Verif.Wannier.Text
import Mathlib.Data.List.TakeWhile
import Mathlib.Data.List.OfFn
import Mathlib.Tactic.Linarith
import Mathlib.Tactic.NormNum
import Mathlib.Tactic.FieldSimp
import Mathlib.Tactic.Ring
import Mathlib.Tactic.FinCases
import Mathlib.LinearAlgebra.Matrix.Notation

/-!
# C97: numbers read from Wannier90 files are the numbers printed there
-/

noncomputable section

set_option linter.unusedSectionVars false

namespace Verif.Wannier.Text

/-! ## What is printed -/

/-- a line consisting of the given words, separated by white space -/
inductive Spaced : List (List Char) → Line → Prop
  | nil (ws : List Char) (h : ∀ c ∈ ws, c.isWhitespace = true) : Spaced [] ws
  | cons (ws t : List Char) (ts : List (List Char)) (rest : Line) (h : ∀ c ∈ ws, c.isWhitespace = true) (ht : t ≠ [])
      (hc : ∀ c ∈ t, c.isWhitespace = false) (hr : Spaced ts rest)
      (hs : rest = [] ∨ ∃ c r, rest = c :: r ∧ c.isWhitespace = true) : Spaced (t :: ts) (ws ++ t ++ rest)

/-- a number in fixed point notation -/
structure Dec where
  /-- minus sign -/
  neg : Bool
  /-- digits before the point -/
  ip : List (Fin 10)
  /-- digits after the point -/
  fp : List (Fin 10)

/-- value of a number without point -/
def digitsVal (l : List (Fin 10)) : ℕ := l.foldl (fun (a : ℕ) (d : Fin 10) => 10 * a + (d : ℕ)) 0

/-- value -/
def Dec.val (x : Dec) : ℝ := (if x.neg then -1 else 1) * ((digitsVal x.ip : ℝ) + digitsVal x.fp / 10 ^ x.fp.length)

/-- the character of a digit -/
def digitChar (d : Fin 10) : Char := Char.ofNat (48 + d)

/-- the printed number -/
def Dec.text (x : Dec) : List Char :=
  (if x.neg then ['-'] else []) ++ x.ip.map digitChar ++ '.' :: x.fp.map digitChar

/-- a number in exponential notation -/
structure Sci where
  /-- mantissa -/
  man : Dec
  /-- negative exponent -/
  eneg : Bool
  /-- digits of the exponent -/
  ex : List (Fin 10)

/-- value -/
def Sci.val (x : Sci) : ℝ := x.man.val * 10 ^ ((if x.eneg then -1 else 1) * (digitsVal x.ex : ℤ))

/-- the printed number -/
def Sci.text (x : Sci) : List Char := x.man.text ++ 'E' :: (if x.eneg then '-' else '+') :: x.ex.map digitChar

/-! ## Lemmas -/

theorem wordsAux_space (ws : List Char) (h : ∀ c ∈ ws, c.isWhitespace = true) (hne : ws ≠ []) (l : List Char) :
    wordsAux (ws ++ l) = ([], words l) := by
  induction ws with
  | nil => exact absurd rfl hne
  | cons c ws ih =>
    have hc := h c List.mem_cons_self
    rw [List.cons_append, wordsAux]
    by_cases hw : ws = []
    · subst hw
      simp only [List.nil_append, hc, if_true]
      rfl
    · rw [ih (fun c hc => h c (List.mem_cons_of_mem _ hc)) hw]
      simp only [hc, if_true]

theorem words_space (ws : List Char) (h : ∀ c ∈ ws, c.isWhitespace = true) (l : List Char) :
    words (ws ++ l) = words l := by
  by_cases hne : ws = []
  · rw [hne, List.nil_append]
  · rw [words, wordsAux_space ws h hne]
    simp

theorem wordsAux_word (t : List Char) (hc : ∀ c ∈ t, c.isWhitespace = false) (l : List Char) :
    wordsAux (t ++ l) = (t ++ (wordsAux l).1, (wordsAux l).2) := by
  induction t with
  | nil => rfl
  | cons c t ih =>
    rw [List.cons_append, wordsAux, ih fun c hc' => hc c (List.mem_cons_of_mem _ hc')]
    simp only [hc c List.mem_cons_self, Bool.false_eq_true, if_false, List.cons_append]

theorem words_spaced (ts : List (List Char)) (l : Line) (h : Spaced ts l) : words l = ts := by
  induction h with
  | nil ws h =>
    have := words_space ws h []
    rw [List.append_nil] at this
    rw [this]
    rfl
  | cons ws t ts rest h ht hc hr hs ih =>
    rw [List.append_assoc, words_space ws h, words, wordsAux_word t hc]
    rcases hs with rfl | ⟨c, r, rfl, hcw⟩
    · have : ts = [] := by rw [← ih]; rfl
      simp [wordsAux, ht, this]
    · have e : wordsAux (c :: r) = ([], words r) := by
        have := wordsAux_space [c] (by simpa using hcw) (by simp) r
        simpa using this
      have e2 : words (c :: r) = words r := by
        have := words_space [c] (by simpa using hcw) r
        simpa using this
      rw [e]
      simp only [List.append_nil, ht, if_false]
      rw [← ih, e2]

theorem tokens_spaced (ts : List (List Char)) (l : Line) (h : Spaced ts l) (hc : '#' ∉ l) : tokens l = ts := by
  have : l.takeWhile (fun c => decide (c ≠ '#')) = l := by
    have := List.takeWhile_append_of_pos (p := fun c => decide (c ≠ '#')) (l₁ := l) (l₂ := []) fun c hm =>
      decide_eq_true (by rintro rfl; exact hc hm)
    simpa using this
  rw [tokens, this]
  exact words_spaced ts l h

theorem digitVal_digitChar (d : Fin 10) : digitVal (digitChar d) = some (d : ℕ) := by
  fin_cases d <;> rfl

theorem mapM_digits (l : List (Fin 10)) : (l.map digitChar).mapM digitVal = some (l.map Fin.val) := by
  induction l with
  | nil => rfl
  | cons d l ih => rw [List.map_cons, List.mapM_cons, digitVal_digitChar, ih]; rfl

theorem natOf_digits (l : List (Fin 10)) : natOf (l.map Fin.val) = digitsVal l := by
  rw [natOf, digitsVal, List.foldl_map]

theorem digitChar_ne_point (d : Fin 10) : digitChar d ≠ '.' := by
  fin_cases d <;> decide

theorem digitChar_ne_sign (d : Fin 10) : digitChar d ≠ '-' ∧ digitChar d ≠ '+' := by
  fin_cases d <;> decide

theorem digitChar_not_space (d : Fin 10) : (digitChar d).isWhitespace = false := by
  fin_cases d <;> rfl

theorem parseUnsigned_text (ip fp : List (Fin 10)) (h : ip ≠ []) :
    parseUnsigned (ip.map digitChar ++ '.' :: fp.map digitChar)
      = some ((digitsVal ip : ℝ) + digitsVal fp / 10 ^ fp.length) := by
  have hp : ∀ c ∈ ip.map digitChar, decide (c ≠ '.') = true := by
    intro c hc
    obtain ⟨d, -, rfl⟩ := List.mem_map.1 hc
    exact decide_eq_true (digitChar_ne_point d)
  have e1 : (ip.map digitChar ++ '.' :: fp.map digitChar).takeWhile (fun c => decide (c ≠ '.')) = ip.map digitChar := by
    rw [List.takeWhile_append_of_pos hp]
    simp
  have e2 : (ip.map digitChar ++ '.' :: fp.map digitChar).dropWhile (fun c => decide (c ≠ '.'))
      = '.' :: fp.map digitChar := by
    rw [List.dropWhile_append_of_pos hp]
    simp
  unfold parseUnsigned
  rw [e1, e2]
  dsimp only
  rw [if_neg (by simp [h]), mapM_digits, mapM_digits]
  dsimp only
  rw [natOf_digits, natOf_digits, List.length_map]

/-- a printed number is read as its value -/
theorem parseDec_text (x : Dec) (h : x.ip ≠ []) : parseDec x.text = some x.val := by
  unfold Dec.text Dec.val
  cases hn : x.neg
  · simp only [Bool.false_eq_true, if_false, List.nil_append, one_mul]
    rw [← parseUnsigned_text x.ip x.fp h]
    obtain ⟨d, l, hl⟩ := List.exists_cons_of_ne_nil h
    rw [hl, List.map_cons, List.cons_append]
    obtain ⟨h1, h2⟩ := digitChar_ne_sign d
    unfold parseDec
    split
    · rename_i heq
      exact absurd (List.cons.inj heq).1 h1
    · rename_i heq
      exact absurd (List.cons.inj heq).1 h2
    · rfl
  · simp only [if_true, List.cons_append, List.nil_append]
    rw [parseDec, parseUnsigned_text x.ip x.fp h]
    simp

theorem parseFloat_dec (s : List Char) (h : ∀ c ∈ s, c ≠ 'E' ∧ c ≠ 'e') : parseFloat s = parseDec s := by
  have : s.dropWhile (fun c => decide (c ≠ 'E' ∧ c ≠ 'e')) = [] := by
    rw [List.dropWhile_eq_nil_iff]
    intro c hc
    exact decide_eq_true (h c hc)
  unfold parseFloat
  rw [this]

theorem text_chars (x : Dec) : ∀ c ∈ x.text, c ≠ 'E' ∧ c ≠ 'e' := by
  have hd : ∀ d : Fin 10, digitChar d ≠ 'E' ∧ digitChar d ≠ 'e' := by
    intro d
    fin_cases d <;> decide
  intro c hc
  unfold Dec.text at hc
  simp only [List.mem_append, List.mem_map, List.mem_cons] at hc
  rcases hc with (hc | ⟨d, -, rfl⟩) | rfl | ⟨d, -, rfl⟩
  · cases hn : x.neg <;> simp [hn] at hc
    subst hc
    decide
  · exact hd d
  · decide
  · exact hd d

theorem parseFloat_text (x : Dec) (h : x.ip ≠ []) : parseFloat x.text = some x.val := by
  rw [parseFloat_dec _ (text_chars x), parseDec_text x h]

/-- a printed number with exponent is read as its value -/
theorem parseFloat_sci (x : Sci) (h : x.man.ip ≠ []) (he : x.ex ≠ []) : parseFloat x.text = some x.val := by
  have hp : ∀ c ∈ x.man.text, decide (c ≠ 'E' ∧ c ≠ 'e') = true := fun c hc => decide_eq_true (text_chars x.man c hc)
  unfold parseFloat Sci.text
  rw [List.dropWhile_append_of_pos hp, List.takeWhile_append_of_pos hp]
  have e1 : ∀ r : List Char, ('E' :: r).dropWhile (fun c => decide (c ≠ 'E' ∧ c ≠ 'e')) = 'E' :: r := fun r => by simp
  have e2 : ∀ r : List Char, ('E' :: r).takeWhile (fun c => decide (c ≠ 'E' ∧ c ≠ 'e')) = [] := fun r => by simp
  rw [e1, e2, List.append_nil]
  dsimp only
  rw [parseDec_text _ h]
  have hm : x.ex.map digitChar ≠ [] := by simpa using he
  have e3 : parseExp ((if x.eneg then '-' else '+') :: x.ex.map digitChar)
      = some ((if x.eneg then -1 else 1) * (digitsVal x.ex : ℤ)) := by
    cases x.eneg
    · simp only [Bool.false_eq_true, if_false]
      rw [parseExp, if_neg hm, mapM_digits, Option.map_some, natOf_digits, one_mul]
    · simp only [if_true]
      rw [parseExp, if_neg hm, mapM_digits, Option.map_some, natOf_digits, neg_one_mul]
  rw [e3]
  rfl

theorem rowOf_eq (cols : List ℕ) (toks : List (List Char)) (xs : List ℝ)
    (h : List.Forall₂ (fun c x => ∃ t, toks[c]? = some t ∧ parseFloat t = some x) cols xs) :
    rowOf cols toks = some xs := by
  unfold rowOf
  induction h with
  | nil => rfl
  | cons h1 _ ih =>
    obtain ⟨t, e1, e2⟩ := h1
    rw [List.mapM_cons, ih, e1]
    dsimp only
    rw [e2]
    rfl

/-! ## Lattice vectors -/

/-- a line of a table of vectors: a label and three numbers -/
def VectorLine (x y z : Dec) (l : Line) : Prop :=
  ∃ label, Spaced [label, x.text, y.text, z.text] l ∧ '#' ∉ l ∧ x.ip ≠ [] ∧ y.ip ≠ [] ∧ z.ip ≠ []

theorem vectorLine_tokens {x y z : Dec} {l : Line} (h : VectorLine x y z l) :
    tokens l ≠ [] ∧ rowOf [1, 2, 3] (tokens l) = some [x.val, y.val, z.val] := by
  obtain ⟨label, hs, hc, hx, hy, hz⟩ := h
  rw [tokens_spaced _ _ hs hc]
  refine ⟨by simp, rowOf_eq _ _ _ (.cons ⟨_, rfl, parseFloat_text x hx⟩ (.cons ⟨_, rfl, parseFloat_text y hy⟩
    (.cons ⟨_, rfl, parseFloat_text z hz⟩ .nil)))⟩

theorem vectorsAfter_eq (unit : ℝ) (x y z : Fin 3 → Dec) (l0 l1 l2 : Line) (post : List Line)
    (h0 : VectorLine (x 0) (y 0) (z 0) l0) (h1 : VectorLine (x 1) (y 1) (z 1) l1)
    (h2 : VectorLine (x 2) (y 2) (z 2) l2) :
    vectorsAfter unit (l0 :: l1 :: l2 :: post) = .ok ([0, 1, 2].map fun i : Fin 3 =>
      [(x i).val * unit, (y i).val * unit, (z i).val * unit]) := by
  obtain ⟨a0, b0⟩ := vectorLine_tokens h0
  obtain ⟨a1, b1⟩ := vectorLine_tokens h1
  obtain ⟨a2, b2⟩ := vectorLine_tokens h2
  have : loadRows [1, 2, 3] ((l0 :: l1 :: l2 :: post).take 3)
      = some [[(x 0).val, (y 0).val, (z 0).val], [(x 1).val, (y 1).val, (z 1).val], [(x 2).val, (y 2).val, (z 2).val]] := by
    unfold loadRows
    simp only [List.take_succ_cons, List.take_zero, List.map_cons, List.map_nil]
    rw [List.filter_cons_of_pos (by simpa using a0), List.filter_cons_of_pos (by simpa using a1),
      List.filter_cons_of_pos (by simpa using a2), List.filter_nil, List.mapM_cons, List.mapM_cons, List.mapM_cons,
      List.mapM_nil, b0, b1, b2]
    rfl
  unfold vectorsAfter
  rw [this]
  rfl

/-- C97: the lattice vectors are the three rows after the first header, in Angstrom whatever the unit of the file; a file
without header is refused. -/
theorem C97_lattice (x y z : Fin 3 → Dec) (pre post : List Line) (hdr l0 l1 l2 : Line)
    (hpre : ∀ l ∈ pre, ¬ "Lattice Vectors".toList <:+: l) (hh : "Lattice Vectors".toList <:+: hdr)
    (h0 : VectorLine (x 0) (y 0) (z 0) l0) (h1 : VectorLine (x 1) (y 1) (z 1) l1)
    (h2 : VectorLine (x 2) (y 2) (z 2) l2) :
    ("(Ang)".toList <:+: hdr → latticeVectors (pre ++ hdr :: l0 :: l1 :: l2 :: post)
      = .ok ([0, 1, 2].map fun i : Fin 3 => [(x i).val, (y i).val, (z i).val])) ∧
    (¬ "(Ang)".toList <:+: hdr → "(Bohr)".toList <:+: hdr → latticeVectors (pre ++ hdr :: l0 :: l1 :: l2 :: post)
      = .ok ([0, 1, 2].map fun i : Fin 3 => [(x i).val * 0.5291772105638411, (y i).val * 0.5291772105638411,
        (z i).val * 0.5291772105638411])) ∧
    ∃ e, latticeVectors pre = .error e := by
  have skip : ∀ (q : List Line), q ≠ [] → latticeVectors (pre ++ q) = latticeVectors q := by
    intro q hq
    clear h0 h1 h2
    induction pre with
    | nil => rfl
    | cons l pre ih =>
      have hl : has "Lattice Vectors" l = false := decide_eq_false (hpre l List.mem_cons_self)
      rw [List.cons_append]
      obtain ⟨c, cs, hc⟩ := List.exists_cons_of_ne_nil (show pre ++ q ≠ [] by simp [hq])
      rw [hc, latticeVectors]
      · rw [hl, if_neg (by simp), ← hc]
        exact ih fun l hl => hpre l (List.mem_cons_of_mem _ hl)
      · simp
  have hhd : has "Lattice Vectors" hdr = true := decide_eq_true hh
  refine ⟨fun ha => ?_, fun ha hb => ?_, ?_⟩
  · have : has "(Ang)" hdr = true := decide_eq_true ha
    rw [skip _ (by simp), latticeVectors, hhd, this, if_pos rfl, if_pos rfl, vectorsAfter_eq 1 x y z _ _ _ _ h0 h1 h2]
    · simp
    · simp
  · have h3 : has "(Ang)" hdr = false := decide_eq_false ha
    have h4 : has "(Bohr)" hdr = true := decide_eq_true hb
    rw [skip _ (by simp), latticeVectors, hhd, h3, h4, if_pos rfl, if_neg (by simp), if_pos rfl,
      vectorsAfter_eq bohr x y z _ _ _ _ h0 h1 h2]
    · rfl
    · simp
  · clear skip h0 h1 h2
    induction pre with
    | nil => exact ⟨_, rfl⟩
    | cons l pre ih =>
      have hl : has "Lattice Vectors" l = false := decide_eq_false (hpre l List.mem_cons_self)
      cases hp : pre with
      | nil => exact ⟨"IOError", by rw [latticeVectors, hl, if_neg (by simp)]⟩
      | cons c cs =>
        rw [latticeVectors, hl, if_neg (by simp), ← hp]
        · exact ih fun l hl => hpre l (List.mem_cons_of_mem _ hl)
        · simp

/-- C97: the reciprocal lattice vectors are the three rows after the header. -/
theorem C97_reciprocal_partial (x y z : Fin 3 → Dec) (pre post : List Line) (hdr l0 l1 l2 : Line)
    (hpre : ∀ l ∈ pre, ¬ "Reciprocal-Space Vectors (Ang^-1)".toList <:+: l)
    (hh : "Reciprocal-Space Vectors (Ang^-1)".toList <:+: hdr)
    (h0 : VectorLine (x 0) (y 0) (z 0) l0) (h1 : VectorLine (x 1) (y 1) (z 1) l1)
    (h2 : VectorLine (x 2) (y 2) (z 2) l2) :
    reciprocalVectors (pre ++ hdr :: l0 :: l1 :: l2 :: post)
      = .ok ([0, 1, 2].map fun i : Fin 3 => [(x i).val, (y i).val, (z i).val]) := by
  have skip : ∀ (q : List Line), q ≠ [] → reciprocalVectors (pre ++ q) = reciprocalVectors q := by
    intro q hq
    clear h0 h1 h2
    induction pre with
    | nil => rfl
    | cons l pre ih =>
      have hl : has "Reciprocal-Space Vectors (Ang^-1)" l = false := decide_eq_false (hpre l List.mem_cons_self)
      rw [List.cons_append]
      obtain ⟨c, cs, hc⟩ := List.exists_cons_of_ne_nil (show pre ++ q ≠ [] by simp [hq])
      rw [hc, reciprocalVectors]
      · rw [hl, if_neg (by simp), ← hc]
        exact ih fun l hl => hpre l (List.mem_cons_of_mem _ hl)
      · simp
  have hhd : has "Reciprocal-Space Vectors (Ang^-1)" hdr = true := decide_eq_true hh
  rw [skip _ (by simp), reciprocalVectors, hhd, if_pos rfl, vectorsAfter_eq 1 x y z _ _ _ _ h0 h1 h2]
  · simp
  · simp

/-- C97 is violated for a file without that header, for example one in units of Bohr: instead of an exception the result
is an empty list. -/
theorem C97_reciprocal_violated (lines : List Line) (hne : lines ≠ [])
    (h : ∀ l ∈ lines, ¬ "Reciprocal-Space Vectors (Ang^-1)".toList <:+: l) : reciprocalVectors lines = .ok [] := by
  induction lines with
  | nil => exact absurd rfl hne
  | cons l rest ih =>
    have hl : has "Reciprocal-Space Vectors (Ang^-1)" l = false := decide_eq_false (h l List.mem_cons_self)
    cases hp : rest with
    | nil => rfl
    | cons c cs =>
      rw [reciprocalVectors, hl, if_neg (by simp), ← hp]
      · exact ih (by simp [hp]) fun l hl => h l (List.mem_cons_of_mem _ hl)
      · simp

/-! ## Orbital positions -/

/-- a printed number cut to eight characters -/
def Dec.cut (x : Dec) : Dec := { x with fp := x.fp.take (7 - (if x.neg then 1 else 0) - x.ip.length) }

theorem take8_text (x : Dec) (h1 : x.ip ≠ []) (h2 : x.ip.length ≤ 6) (h3 : x.fp.length = 6) (rest : List Char) :
    (x.text ++ rest).take 8 = x.cut.text := by
  have hp : 0 < x.ip.length := List.length_pos_iff.2 h1
  unfold Dec.text Dec.cut
  cases hn : x.neg
  · simp only [Bool.false_eq_true, if_false, List.nil_append, Nat.sub_zero]
    rw [List.append_assoc, List.take_append, List.take_of_length_le (by simp; omega), List.length_map]
    congr 1
    rw [List.cons_append, show 8 - x.ip.length = (7 - x.ip.length) + 1 by omega, List.take_succ_cons,
      List.take_append_of_le_length (by simp; omega), List.map_take]
  · simp only [if_true, List.cons_append, List.nil_append]
    rw [List.take_succ_cons]
    congr 1
    rw [List.append_assoc, List.take_append, List.take_of_length_le (by simp; omega), List.length_map]
    congr 1
    rw [List.cons_append, show 7 - x.ip.length = (7 - 1 - x.ip.length) + 1 by omega, List.take_succ_cons,
      List.take_append_of_le_length (by simp; omega), List.map_take]

theorem digitsVal_append (l m : List (Fin 10)) :
    digitsVal (l ++ m) = digitsVal l * 10 ^ m.length + digitsVal m := by
  induction m using List.reverseRecOn with
  | nil => simp [digitsVal]
  | append_singleton m d ih =>
    unfold digitsVal at ih ⊢
    rw [← List.append_assoc, List.foldl_append, ih, List.foldl_append, List.length_append]
    simp only [List.foldl_cons, List.foldl_nil, List.length_cons, List.length_nil]
    ring

theorem digitsVal_lt (l : List (Fin 10)) : digitsVal l < 10 ^ l.length := by
  induction l using List.reverseRecOn with
  | nil => simp [digitsVal]
  | append_singleton l d ih =>
    rw [digitsVal_append, List.length_append]
    simp only [digitsVal, List.foldl_cons, List.foldl_nil, List.length_cons, List.length_nil] at ih ⊢
    have := d.2
    rw [pow_add, pow_add]
    omega

/-- the cut drops the value of the digits that are cut off -/
theorem cut_val (x : Dec) : x.val = x.cut.val + (if x.neg then -1 else 1) *
    (digitsVal (x.fp.drop (7 - (if x.neg then 1 else 0) - x.ip.length)) / 10 ^ x.fp.length) := by
  set n := 7 - (if x.neg then 1 else 0) - x.ip.length with hn
  have h1 : digitsVal x.fp = digitsVal (x.fp.take n) * 10 ^ (x.fp.drop n).length + digitsVal (x.fp.drop n) := by
    rw [← digitsVal_append, List.take_append_drop]
  have h2 : x.fp.length = (x.fp.take n).length + (x.fp.drop n).length := by
    rw [← List.length_append, List.take_append_drop]
  unfold Dec.val Dec.cut
  rw [← hn]
  have h3 : (digitsVal x.fp : ℝ) / 10 ^ x.fp.length = digitsVal (x.fp.take n) / 10 ^ (x.fp.take n).length
      + digitsVal (x.fp.drop n) / 10 ^ x.fp.length := by
    rw [h1, h2, pow_add]
    push_cast
    field_simp
  rw [h3]
  ring

/-- a line of the table of Wannier centres: `WF centre and spread 1 ( x, y, z ) s`, coordinates with six decimals -/
def CentreLine (x : Fin 3 → Dec) (l : Line) : Prop :=
  ∃ t0 t1 t2 t3 t4 t5 t9 t10, Spaced [t0, t1, t2, t3, t4, t5, (x 0).text ++ [','], (x 1).text ++ [','], (x 2).text,
    t9, t10] l ∧ '#' ∉ l ∧ ¬ "Sum of centres".toList <:+: l ∧
    ∀ a, (x a).ip ≠ [] ∧ (x a).ip.length ≤ 6 ∧ (x a).fp.length = 6

theorem centreLine_tokens {x : Fin 3 → Dec} {l : Line} (h : CentreLine x l) :
    tokens8 l ≠ [] ∧ (tokens8 l).length = 11 ∧
      rowOf [6, 7, 8] (tokens8 l) = some [(x 0).cut.val, (x 1).cut.val, (x 2).cut.val] := by
  obtain ⟨t0, t1, t2, t3, t4, t5, t9, t10, hs, hc, -, hx⟩ := h
  have hcut : ∀ a rest, parseFloat (((x a).text ++ rest).take 8) = some (x a).cut.val := by
    intro a rest
    obtain ⟨h1, h2, h3⟩ := hx a
    rw [take8_text _ h1 h2 h3, parseFloat_text _ (by exact h1)]
  rw [tokens8, tokens_spaced _ _ hs hc]
  refine ⟨by simp, rfl, rowOf_eq _ _ _ (.cons ⟨_, rfl, hcut 0 _⟩ (.cons ⟨_, rfl, hcut 1 _⟩
    (.cons ⟨_, rfl, ?_⟩ .nil)))⟩
  have := hcut 2 []
  rwa [List.append_nil] at this

theorem centreLines_true (ls acc post : List Line) (sum : Line) (h : ∀ l ∈ ls, ¬ "Sum of centres".toList <:+: l)
    (hs : "Sum of centres".toList <:+: sum) : centreLines true acc (ls ++ sum :: post) = some (acc ++ ls) := by
  induction ls generalizing acc with
  | nil =>
    have : has "Sum of centres" sum = true := decide_eq_true hs
    rw [List.nil_append, centreLines, this, if_pos rfl, List.append_nil]
  | cons l ls ih =>
    have hl : has "Sum of centres" l = false := decide_eq_false (h l List.mem_cons_self)
    rw [List.cons_append, centreLines, hl, if_neg (by simp), ih _ fun l hl => h l (List.mem_cons_of_mem _ hl)]
    simp

theorem centreLines_eq (pre ls post : List Line) (hdr sum : Line)
    (hpre : ∀ l ∈ pre, ¬ "Final State".toList <:+: l) (hh : "Final State".toList <:+: hdr)
    (hh' : ¬ "Sum of centres".toList <:+: hdr) (h : ∀ l ∈ ls, ¬ "Sum of centres".toList <:+: l)
    (hs : "Sum of centres".toList <:+: sum) : centreLines false [] (pre ++ hdr :: (ls ++ sum :: post)) = some ls := by
  induction pre with
  | nil =>
    have e1 : has "Final State" hdr = true := decide_eq_true hh
    have e2 : has "Sum of centres" hdr = false := decide_eq_false hh'
    rw [List.nil_append, centreLines, e1, e2, if_pos rfl, if_neg (by simp), centreLines_true ls [] post sum h hs]
    rfl
  | cons l pre ih =>
    have hl : has "Final State" l = false := decide_eq_false (hpre l List.mem_cons_self)
    rw [List.cons_append, centreLines, hl, if_neg (by simp)]
    exact ih fun l hl => hpre l (List.mem_cons_of_mem _ hl)

theorem mapM_some {α β : Type} (f : α → Option β) (l : List α) (ys : List β)
    (h : List.Forall₂ (fun x y => f x = some y) l ys) : l.mapM f = some ys := by
  induction h with
  | nil => rfl
  | cons h1 _ ih => rw [List.mapM_cons, h1, ih]; rfl

/-- the centres as they are read: every number cut to eight characters -/
theorem positions_eq (units : Matrix (Fin 3) (Fin 3) ℝ) (hd : units.det ≠ 0) (xs : List (Fin 3 → Dec))
    (h2 : 2 ≤ xs.length) (pre ls post : List Line) (hdr sum : Line)
    (hpre : ∀ l ∈ pre, ¬ "Final State".toList <:+: l) (hh : "Final State".toList <:+: hdr)
    (hh' : ¬ "Sum of centres".toList <:+: hdr) (hs : "Sum of centres".toList <:+: sum)
    (hl : List.Forall₂ CentreLine xs ls) :
    orbitalPositions true true units (pre ++ hdr :: (ls ++ sum :: post)) = .ok (xs.map fun x =>
      (units.transpose)⁻¹.mulVec fun a => (x a).cut.val) := by
  have hsum : ∀ l ∈ ls, ¬ "Sum of centres".toList <:+: l := by
    intro l hm
    obtain ⟨i, hi, rfl⟩ := List.getElem_of_mem hm
    obtain ⟨_, _, _, _, _, _, _, _, _, _, h, _⟩ := hl.get (by rw [hl.length_eq]; exact hi) hi
    exact h
  have hrows : (ls.map tokens8).filter (fun t => decide (t ≠ [])) = ls.map tokens8 := by
    rw [List.filter_eq_self]
    intro t ht
    obtain ⟨l, hm, rfl⟩ := List.mem_map.1 ht
    obtain ⟨i, hi, rfl⟩ := List.getElem_of_mem hm
    exact decide_eq_true (centreLine_tokens (hl.get (by rw [hl.length_eq]; exact hi) hi)).1
  have hlen : ∀ t ∈ ls.map tokens8, t.length = 11 := by
    intro t ht
    obtain ⟨l, hm, rfl⟩ := List.mem_map.1 ht
    obtain ⟨i, hi, rfl⟩ := List.getElem_of_mem hm
    exact (centreLine_tokens (hl.get (by rw [hl.length_eq]; exact hi) hi)).2.1
  have hmap : (ls.map tokens8).mapM (rowOf [6, 7, 8])
      = some (xs.map fun x => [(x 0).cut.val, (x 1).cut.val, (x 2).cut.val]) := by
    refine mapM_some _ _ _ ?_
    rw [List.forall₂_map_left_iff, List.forall₂_map_right_iff]
    exact hl.flip.imp fun l x h => (centreLine_tokens h).2.2
  have hc : centres true (pre ++ hdr :: (ls ++ sum :: post)) = .ok (xs.map fun x a => (x a).cut.val) := by
    unfold centres
    rw [centreLines_eq pre ls post hdr sum hpre hh hh' hsum hs]
    dsimp only
    rw [hrows]
    have hll : 2 ≤ (ls.map tokens8).length := by rw [List.length_map, ← hl.length_eq]; exact h2
    generalize ls.map tokens8 = rows at *
    match rows, hll, hlen, hmap with
    | r0 :: r1 :: rest, _, hlen, hmap =>
      have e0 := hlen r0 (by simp)
      dsimp only
      rw [if_neg, if_neg (by omega), if_neg (by simp), hmap]
      · dsimp only
        rw [List.map_map]
        congr 1
        refine List.map_congr_left fun x _ => ?_
        funext a
        fin_cases a <;> rfl
      · rintro ⟨r, hr, hne⟩
        exact hne ((hlen r (List.mem_cons_of_mem _ hr)).trans e0.symm)
  unfold orbitalPositions
  rw [hc]
  dsimp only
  rw [if_neg (by simp), if_neg hd, List.map_map]
  rfl

/-- C97: the orbital positions. For a table of two or more centres in the unit of the lattice vectors, the cartesian
position `∑ v_i a_i` of the result is the printed one: exactly for coordinates between zero and ten, and up to the digits
beyond the eighth character otherwise.

Missing: the exact value for other coordinates (`C97_digits_violated`), a single orbital (`C97_single_violated`), the
documented list of tuples as argument (`C97_list_violated`), files in units of Bohr (`C97_bohr_violated`). -/
theorem C97_positions_partial (units : Matrix (Fin 3) (Fin 3) ℝ) (hd : units.det ≠ 0) (xs : List (Fin 3 → Dec))
    (h2 : 2 ≤ xs.length) (pre ls post : List Line) (hdr sum : Line)
    (hpre : ∀ l ∈ pre, ¬ "Final State".toList <:+: l) (hh : "Final State".toList <:+: hdr)
    (hh' : ¬ "Sum of centres".toList <:+: hdr) (hs : "Sum of centres".toList <:+: sum)
    (hl : List.Forall₂ CentreLine xs ls) :
    ∃ vs, orbitalPositions true true units (pre ++ hdr :: (ls ++ sum :: post)) = .ok vs ∧
      List.Forall₂ (fun x v => ∀ a,
        ((x a).neg = false → (x a).ip.length = 1 → ∑ i, v i * units i a = (x a).val) ∧
        |∑ i, v i * units i a - (x a).val| < 10 ^ (-(7 - (if (x a).neg then 1 else 0) - (x a).ip.length : ℤ))) xs vs := by
  refine ⟨_, positions_eq units hd xs h2 pre ls post hdr sum hpre hh hh' hs hl, ?_⟩
  rw [List.forall₂_map_right_iff, List.forall₂_same]
  intro x hx a
  have hcond : (x a).ip ≠ [] ∧ (x a).ip.length ≤ 6 ∧ (x a).fp.length = 6 := by
    obtain ⟨i, hi, rfl⟩ := List.getElem_of_mem hx
    obtain ⟨_, _, _, _, _, _, _, _, _, _, _, h⟩ := hl.get hi (by rw [← hl.length_eq]; exact hi)
    exact h a
  have hv : ∑ i, ((units.transpose)⁻¹.mulVec fun a => (x a).cut.val) i * units i a = (x a).cut.val := by
    have h := Matrix.mulVec_mulVec (fun a => (x a).cut.val) units.transpose (units.transpose)⁻¹
    rw [Matrix.mul_nonsing_inv _ (by rw [Matrix.det_transpose]; exact isUnit_iff_ne_zero.2 hd), Matrix.one_mulVec] at h
    have h' := congrFun h a
    rw [← h']
    simp only [Matrix.mulVec, dotProduct, Matrix.transpose_apply]
    exact Finset.sum_congr rfl fun i _ => mul_comm _ _
  rw [hv]
  have hcut := cut_val (x a)
  set n := 7 - (if (x a).neg then 1 else 0) - (x a).ip.length with hn
  constructor
  · intro h1 h3
    rw [hcut]
    have : (x a).fp.drop n = [] := by
      rw [List.drop_eq_nil_iff, hcond.2.2, hn, h1, h3]
      simp
    rw [this]
    simp [digitsVal]
  · have h4 := digitsVal_lt ((x a).fp.drop n)
    have hp : 0 < (x a).ip.length := List.length_pos_iff.2 hcond.1
    have hle : n ≤ 6 ∧ ((x a).fp.drop n).length = 6 - n ∧
        (7 - (if (x a).neg then 1 else 0) - (x a).ip.length : ℤ) = n := by
      refine ⟨?_, by rw [List.length_drop, hcond.2.2], ?_⟩
      · rw [hn]; omega
      · have := hcond.2.1
        rw [hn]
        split_ifs <;> omega
    rw [hle.2.1] at h4
    rw [hle.2.2, abs_sub_comm, hcut, add_sub_cancel_left, abs_mul]
    have habs : |(if (x a).neg then (-1 : ℝ) else 1)| = 1 := by split_ifs <;> simp
    rw [habs, one_mul, abs_of_nonneg (by positivity), hcond.2.2, zpow_neg, zpow_natCast, ← one_div,
      div_lt_div_iff₀ (by positivity) (by positivity), one_mul]
    have h5 : (10 : ℝ) ^ 6 = 10 ^ (6 - n) * 10 ^ n := by
      rw [← pow_add, Nat.sub_add_cancel hle.1]
    rw [h5]
    have : (digitsVal ((x a).fp.drop n) : ℝ) < 10 ^ (6 - n) := by exact_mod_cast h4
    exact mul_lt_mul_of_pos_right this (by positivity)

/-- C97 is violated for negative coordinates: the last digit is cut off, so whenever it is not zero the position differs
from the printed one. -/
theorem C97_digits_violated (units : Matrix (Fin 3) (Fin 3) ℝ) (hd : units.det ≠ 0) (xs : List (Fin 3 → Dec))
    (h2 : 2 ≤ xs.length) (pre ls post : List Line) (hdr sum : Line)
    (hpre : ∀ l ∈ pre, ¬ "Final State".toList <:+: l) (hh : "Final State".toList <:+: hdr)
    (hh' : ¬ "Sum of centres".toList <:+: hdr) (hs : "Sum of centres".toList <:+: sum)
    (hl : List.Forall₂ CentreLine xs ls) (i : ℕ) (hi : i < xs.length) (a : Fin 3) (hneg : (xs[i] a).neg = true)
    (h1 : (xs[i] a).ip.length = 1) (f : List (Fin 10)) (d : Fin 10) (hf : (xs[i] a).fp = f ++ [d]) (h0 : d ≠ 0) :
    ∃ vs, orbitalPositions true true units (pre ++ hdr :: (ls ++ sum :: post)) = .ok vs ∧ ∃ h : i < vs.length,
      ∑ j, vs[i] j * units j a ≠ (xs[i] a).val := by
  refine ⟨_, positions_eq units hd xs h2 pre ls post hdr sum hpre hh hh' hs hl, by simpa using hi, ?_⟩
  rw [List.getElem_map]
  set x := xs[i] with hx
  have hlen : (x a).fp.length = 6 := by
    obtain ⟨_, _, _, _, _, _, _, _, _, _, _, h⟩ := hl.get hi (by rw [← hl.length_eq]; exact hi)
    exact (h a).2.2
  have hv : ∑ i, ((units.transpose)⁻¹.mulVec fun a => (x a).cut.val) i * units i a = (x a).cut.val := by
    have h := Matrix.mulVec_mulVec (fun a => (x a).cut.val) units.transpose (units.transpose)⁻¹
    rw [Matrix.mul_nonsing_inv _ (by rw [Matrix.det_transpose]; exact isUnit_iff_ne_zero.2 hd), Matrix.one_mulVec] at h
    have h' := congrFun h a
    rw [← h']
    simp only [Matrix.mulVec, dotProduct, Matrix.transpose_apply]
    exact Finset.sum_congr rfl fun i _ => mul_comm _ _
  rw [hv, cut_val (x a), hneg, h1]
  have hfl : f.length = 5 := by
    rw [hf, List.length_append] at hlen
    simpa using hlen
  have hdrop : (x a).fp.drop 5 = [d] := by
    rw [hf, ← hfl, List.drop_left']
    rfl
  simp only [if_true]
  rw [show 7 - 1 - 1 = 5 from rfl, hdrop]
  intro he
  have hz : ((d : ℕ) : ℝ) / 10 ^ (x a).fp.length = 0 := by
    simp only [digitsVal, List.foldl_cons, List.foldl_nil, mul_zero, zero_add] at he
    linarith
  have hz' : ((d : ℕ) : ℝ) = 0 := by
    rcases div_eq_zero_iff.1 hz with h | h
    · exact h
    · exact absurd h (by positivity)
  exact h0 (Fin.ext (Nat.cast_eq_zero.1 hz'))

/-- C97 is violated for a single orbital: the table with one row is read as a one dimensional array, and indexing it
raises. -/
theorem C97_single_violated (npFloat isArray : Bool) (units : Matrix (Fin 3) (Fin 3) ℝ) (x : Fin 3 → Dec)
    (pre post : List Line) (hdr l sum : Line)
    (hpre : ∀ l ∈ pre, ¬ "Final State".toList <:+: l) (hh : "Final State".toList <:+: hdr)
    (hh' : ¬ "Sum of centres".toList <:+: hdr) (hs : "Sum of centres".toList <:+: sum) (hl : CentreLine x l) :
    orbitalPositions npFloat isArray units (pre ++ hdr :: l :: sum :: post) = .error "IndexError" := by
  have hsum : ∀ l' ∈ [l], ¬ "Sum of centres".toList <:+: l' := by
    intro l' hm
    rw [List.mem_singleton.1 hm]
    obtain ⟨_, _, _, _, _, _, _, _, _, _, h, _⟩ := hl
    exact h
  have h := centreLines_eq pre [l] post hdr sum hpre hh hh' hsum hs
  unfold orbitalPositions centres
  rw [show pre ++ hdr :: l :: sum :: post = pre ++ hdr :: ([l] ++ sum :: post) from rfl, h]
  dsimp only
  rw [List.map_cons, List.map_nil, List.filter_cons_of_pos (by simpa using (centreLine_tokens hl).1), List.filter_nil]

/-- C97 is violated for the documented argument, the list of tuples returned by the parser of the lattice vectors, and
with a numpy without `np.float`: an exception for every file. -/
theorem C97_list_violated (npFloat isArray : Bool) (h : npFloat = false ∨ isArray = false)
    (units : Matrix (Fin 3) (Fin 3) ℝ) (lines : List Line) :
    ∃ e, orbitalPositions npFloat isArray units lines = .error e := by
  rcases h with rfl | rfl
  · have : ∃ e, centres false lines = .error e := by
      unfold centres
      split
      · exact ⟨_, rfl⟩
      · split
        · exact ⟨_, rfl⟩
        · exact ⟨_, rfl⟩
        · split_ifs with h1 h2 h3
          · exact ⟨_, rfl⟩
          · exact ⟨_, rfl⟩
          · exact ⟨_, rfl⟩
          · exact absurd rfl h3
    obtain ⟨e, he⟩ := this
    exact ⟨e, by unfold orbitalPositions; rw [he]⟩
  · unfold orbitalPositions
    split
    · exact ⟨_, rfl⟩
    · exact ⟨_, if_pos rfl⟩

/-- C97 is violated for a file in units of Bohr: the lattice vectors are converted to Angstrom (`C97_lattice`), the
centres are not, and the relative coordinates of all orbitals come out too large by `1 / 0.529`. -/
theorem C97_bohr_violated (b : ℝ) (hb : b ≠ 0) (units : Matrix (Fin 3) (Fin 3) ℝ) (hd : units.det ≠ 0)
    (lines : List Line) (vs : List (Fin 3 → ℝ)) (h : orbitalPositions true true units lines = .ok vs) :
    orbitalPositions true true (b • units) lines = .ok (vs.map fun v => b⁻¹ • v) := by
  have hdet : (b • units).det ≠ 0 := by
    rw [Matrix.det_smul]
    exact mul_ne_zero (pow_ne_zero _ hb) hd
  have hinv : ((b • units).transpose)⁻¹ = b⁻¹ • (units.transpose)⁻¹ := by
    rw [Matrix.transpose_smul]
    refine Matrix.inv_eq_right_inv ?_
    rw [Matrix.smul_mul, Matrix.mul_smul, smul_smul, mul_inv_cancel₀ hb, one_smul,
      Matrix.mul_nonsing_inv _ (by rw [Matrix.det_transpose]; exact isUnit_iff_ne_zero.2 hd)]
  unfold orbitalPositions at h ⊢
  cases hc : centres true lines with
  | error e => rw [hc] at h; cases h
  | ok xs =>
    rw [hc] at h
    dsimp only at h ⊢
    rw [if_neg (by simp), if_neg hd] at h
    rw [if_neg (by simp), if_neg hdet, ← Except.ok.inj h, List.map_map, hinv]
    congr 1
    exact List.map_congr_left fun x _ => Matrix.smul_mulVec _ _ _

/-! ## Bands -/

/-- a line of a band file -/
def BandLine (w e : Sci) (l : Line) : Prop :=
  Spaced [w.text, e.text] l ∧ '#' ∉ l ∧ w.man.ip ≠ [] ∧ e.man.ip ≠ [] ∧ w.ex ≠ [] ∧ e.ex ≠ []

/-- an empty line -/
def Blank (l : Line) : Prop := ∃ k, l = List.replicate k ' ' ++ ['\n']

theorem bandLine_tokens {w e : Sci} {l : Line} (h : BandLine w e l) :
    (tokens l).length = 2 ∧ rowOf [0, 1] (tokens l) = some [w.val, e.val] := by
  obtain ⟨hs, hc, h1, h2, h3, h4⟩ := h
  rw [tokens_spaced _ _ hs hc]
  exact ⟨rfl, rowOf_eq _ _ _ (.cons ⟨_, rfl, parseFloat_sci w h1 h3⟩ (.cons ⟨_, rfl, parseFloat_sci e h2 h4⟩ .nil))⟩

theorem blank_tokens {l : Line} (h : Blank l) : tokens l = [] := by
  obtain ⟨k, rfl⟩ := h
  refine tokens_spaced _ _ (.nil _ ?_) ?_
  · intro c hc
    simp only [List.mem_append, List.mem_singleton] at hc
    rcases hc with hc | rfl
    · rw [(List.mem_replicate.1 hc).2]; rfl
    · rfl
  · simp only [List.mem_append, List.mem_singleton, List.mem_replicate]
    rintro (⟨_, h⟩ | h) <;> exact absurd h (by decide)

/-- the test for empty lines -/
theorem stripped_blank {l : Line} (h : Blank l) :
    ((l.dropWhile (fun c => decide (c = ' '))).reverse.dropWhile (fun c => decide (c = ' '))).reverse = ['\n'] := by
  obtain ⟨k, rfl⟩ := h
  rw [List.dropWhile_append_of_pos]
  · simp
  · intro c hc
    exact decide_eq_true (List.mem_replicate.1 hc).2

theorem stripped_tokens {l : Line}
    (h : ((l.dropWhile (fun c => decide (c = ' '))).reverse.dropWhile (fun c => decide (c = ' '))).reverse = ['\n']) :
    words l = [] := by
  have hl : ∀ c ∈ l, c.isWhitespace = true := by
    have h1 : (l.dropWhile (fun c => decide (c = ' '))).reverse.dropWhile (fun c => decide (c = ' ')) = ['\n'] := by
      rw [← List.reverse_reverse (List.dropWhile _ (List.reverse _)), h]
      rfl
    intro c hc
    rw [← List.takeWhile_append_dropWhile (p := fun c => decide (c = ' ')) (l := l), List.mem_append] at hc
    rcases hc with hc | hc
    · have hd := List.mem_takeWhile_imp hc
      have := of_decide_eq_true hd
      rw [this]; rfl
    · rw [← List.mem_reverse, ← List.takeWhile_append_dropWhile (p := fun c => decide (c = ' '))
        (l := (l.dropWhile _).reverse), List.mem_append] at hc
      rcases hc with hc | hc
      · have hd := List.mem_takeWhile_imp hc
        have := of_decide_eq_true hd
        rw [this]; rfl
      · rw [h1, List.mem_singleton] at hc
        rw [hc]; rfl
  exact words_spaced [] l (.nil l hl)

theorem bandLine_not_blank {w e : Sci} {l : Line} (h : BandLine w e l) :
    ((l.dropWhile (fun c => decide (c = ' '))).reverse.dropWhile (fun c => decide (c = ' '))).reverse ≠ ['\n'] := by
  intro hb
  have := stripped_tokens hb
  rw [words_spaced _ _ h.1] at this
  simp at this

/-- tokens and empty lines of a file whose lines are rows or empty -/
theorem band_scan (lines : List (Line × Option (Sci × Sci)))
    (h : ∀ p ∈ lines, match p.2 with | some q => BandLine q.1 q.2 p.1 | none => Blank p.1) :
    emptyLines (lines.map Prod.fst) = (lines.filter fun p => p.2.isNone).length ∧
    (∀ t ∈ ((lines.map Prod.fst).map tokens).filter (fun t => decide (t ≠ [])), t.length = 2) ∧
    (((lines.map Prod.fst).map tokens).filter (fun t => decide (t ≠ []))).mapM (rowOf [0, 1])
      = some ((lines.filterMap Prod.snd).map fun q => [q.1.val, q.2.val]) := by
  induction lines with
  | nil => exact ⟨rfl, by simp, rfl⟩
  | cons p lines ih =>
    obtain ⟨i1, i2, i3⟩ := ih fun p hp => h p (List.mem_cons_of_mem _ hp)
    have hp := h p List.mem_cons_self
    obtain ⟨l, o⟩ := p
    unfold emptyLines at i1 ⊢
    cases o with
    | none =>
      have hp : Blank l := hp
      simp only [List.map_cons]
      rw [List.filter_cons_of_pos (by exact decide_eq_true (stripped_blank hp)),
        List.filter_cons_of_pos (by rfl), List.filter_cons_of_neg (by simp [blank_tokens hp])]
      exact ⟨by rw [List.length_cons, List.length_cons, i1], i2, i3⟩
    | some q =>
      have hp : BandLine q.1 q.2 l := hp
      obtain ⟨t1, t2⟩ := bandLine_tokens hp
      have t0 : tokens l ≠ [] := by rintro h0; rw [h0] at t1; simp at t1
      simp only [List.map_cons]
      rw [List.filter_cons_of_neg (by simpa using bandLine_not_blank hp), List.filter_cons_of_neg (by simp),
        List.filter_cons_of_pos (by simpa using t0)]
      refine ⟨i1, ?_, ?_⟩
      · intro t ht
        rcases List.mem_cons.1 ht with rfl | ht
        · exact t1
        · exact i2 t ht
      · rw [List.mapM_cons, t2, i3]
        rfl

/-- a file of rows and empty lines -/
theorem bandStructure_eq (lines : List (Line × Option (Sci × Sci))) (B n : ℕ)
    (h : ∀ p ∈ lines, match p.2 with | some q => BandLine q.1 q.2 p.1 | none => Blank p.1)
    (hB : (lines.filter fun p => p.2.isNone).length = B) (hB0 : B ≠ 0)
    (hn : (lines.filterMap Prod.snd).length = B * n) (h1 : B * n ≠ 1) :
    bandStructure (lines.map Prod.fst) = .ok ((B, n),
      (fun b j => (((lines.filterMap Prod.snd).map fun q => [q.1.val, q.2.val]).getD (b * n + j) []).getD 1 0),
      fun b j => (((lines.filterMap Prod.snd).map fun q => [q.1.val, q.2.val]).getD (b * n + j) []).getD 0 0) := by
  obtain ⟨e1, e2, e3⟩ := band_scan lines h
  unfold bandStructure
  dsimp only
  rw [if_neg (by rintro ⟨t, ht, hne⟩; exact hne (e2 t ht)), e3, e1, hB]
  dsimp only
  rw [if_neg hB0, List.length_map, hn, if_neg h1, Nat.mul_div_cancel_left n (Nat.pos_of_ne_zero hB0), if_neg (by simp)]

/-- C97: the band structure. For `B` blocks of `n` rows, each block closed by an empty line as Wannier90 writes them, the
energy and the path coordinate of point `j` of band `b` are those of row `j` of block `b`.

Missing: files without the last empty line (`C97_bands_violated`), a single row in the whole file; the path coordinate is
returned for each band, not as the documented one dimensional array. -/
theorem C97_bands_partial (B n : ℕ) (hB : B ≠ 0) (hn : B * n ≠ 1) (w e : Fin B → Fin n → Sci) (ls : Fin B → Fin n → Line)
    (blank : Fin B → Line) (hl : ∀ b j, BandLine (w b j) (e b j) (ls b j)) (hb : ∀ b, Blank (blank b)) :
    ∃ E W, bandStructure (List.ofFn fun b => List.ofFn (ls b) ++ [blank b]).flatten = .ok ((B, n), E, W) ∧
      ∀ (b : Fin B) (j : Fin n), E b j = (e b j).val ∧ W b j = (w b j).val := by
  set lines : List (Line × Option (Sci × Sci)) := (List.ofFn fun b : Fin B =>
    (List.ofFn fun j => (ls b j, some (w b j, e b j))) ++ [(blank b, none)]).flatten with hlines
  have hmap : lines.map Prod.fst = (List.ofFn fun b => List.ofFn (ls b) ++ [blank b]).flatten := by
    rw [hlines, List.map_flatten, List.map_ofFn]
    congr 2
    funext b
    simp only [Function.comp, List.map_append, List.map_ofFn, List.map_cons, List.map_nil]
    rfl
  have hfm : lines.filterMap Prod.snd = (List.ofFn fun b : Fin B => List.ofFn fun j => (w b j, e b j)).flatten := by
    rw [hlines, List.filterMap_flatten, List.map_ofFn]
    congr 2
    funext b
    simp only [Function.comp, List.filterMap_append]
    rw [show [(blank b, (none : Option (Sci × Sci)))].filterMap Prod.snd = [] from rfl, List.append_nil]
    have : (List.ofFn fun j => (ls b j, some (w b j, e b j)))
        = (List.ofFn fun j => (j : Fin n)).map fun j => (ls b j, some (w b j, e b j)) := by
      rw [List.map_ofFn]; rfl
    rw [this, List.filterMap_map, show (List.ofFn fun j => (w b j, e b j))
      = (List.ofFn fun j => (j : Fin n)).map fun j => (w b j, e b j) by rw [List.map_ofFn]; rfl]
    exact List.filterMap_eq_map_iff_forall_eq_some.2 fun x _ => rfl
  have hcount : (lines.filter fun p => p.2.isNone).length = B := by
    rw [hlines, List.filter_flatten, List.map_ofFn, List.length_flatten, List.map_ofFn]
    have : ∀ b : Fin B, (List.length ∘ (List.filter fun p : Line × Option (Sci × Sci) => p.2.isNone) ∘ fun b : Fin B =>
        (List.ofFn fun j => (ls b j, some (w b j, e b j))) ++ [(blank b, none)]) b = 1 := by
      intro b
      simp only [Function.comp, List.filter_append, List.length_append]
      rw [List.filter_eq_nil_iff.2]
      · rfl
      · intro p hp
        obtain ⟨j, rfl⟩ := (List.mem_ofFn' _ _).1 hp
        simp
    rw [show (List.length ∘ (List.filter fun p : Line × Option (Sci × Sci) => p.2.isNone) ∘ fun b : Fin B =>
        (List.ofFn fun j => (ls b j, some (w b j, e b j))) ++ [(blank b, none)]) = fun _ => 1 from funext this]
    simp
  have hprod : (List.ofFn fun b : Fin B => List.ofFn fun j => (w b j, e b j)).flatten
      = List.ofFn fun k : Fin (B * n) => (w k.divNat k.modNat, e k.divNat k.modNat) := by
    rw [List.ofFn_mul]
    congr 2
    funext b
    congr 1
    funext j
    have hj : ∀ h, (⟨b * n + j, h⟩ : Fin (B * n)).divNat = b ∧ (⟨b * n + j, h⟩ : Fin (B * n)).modNat = j := by
      intro h
      have hn0 : 0 < n := Nat.lt_of_le_of_lt (Nat.zero_le _) j.2
      constructor
      · ext
        simp only [Fin.divNat]
        rw [mul_comm, Nat.mul_add_div hn0, Nat.div_eq_of_lt j.2, add_zero]
      · ext
        simp only [Fin.modNat]
        rw [mul_comm, Nat.mul_add_mod, Nat.mod_eq_of_lt j.2]
    rw [(hj _).1, (hj _).2]
  have hforall : ∀ p ∈ lines, match p.2 with | some q => BandLine q.1 q.2 p.1 | none => Blank p.1 := by
    intro p hp
    rw [hlines, List.mem_flatten] at hp
    obtain ⟨l, hl1, hp⟩ := hp
    obtain ⟨b, rfl⟩ := (List.mem_ofFn' _ _).1 hl1
    rcases List.mem_append.1 hp with hp | hp
    · obtain ⟨j, rfl⟩ := (List.mem_ofFn' _ _).1 hp
      exact hl b j
    · rw [List.mem_singleton.1 hp]
      exact hb b
  have hmain := bandStructure_eq lines B n hforall hcount hB (by rw [hfm, hprod, List.length_ofFn]) hn
  rw [hmap] at hmain
  refine ⟨_, _, hmain, fun b j => ?_⟩
  have hlt : (b : ℕ) * n + j < B * n := by
    calc (b : ℕ) * n + j < b * n + n := by have := j.2; omega
      _ = (b + 1) * n := by ring
      _ ≤ B * n := Nat.mul_le_mul_right _ b.2
  have hj : (⟨b * n + j, hlt⟩ : Fin (B * n)).divNat = b ∧ (⟨b * n + j, hlt⟩ : Fin (B * n)).modNat = j := by
    have hn0 : 0 < n := Nat.lt_of_le_of_lt (Nat.zero_le _) j.2
    constructor
    · ext
      simp only [Fin.divNat]
      rw [mul_comm, Nat.mul_add_div hn0, Nat.div_eq_of_lt j.2, add_zero]
    · ext
      simp only [Fin.modNat]
      rw [mul_comm, Nat.mul_add_mod, Nat.mod_eq_of_lt j.2]
  rw [hfm, hprod, List.map_ofFn]
  have hg : ∀ d, (List.ofFn ((fun q : Sci × Sci => [q.1.val, q.2.val]) ∘ fun k : Fin (B * n) =>
      (w k.divNat k.modNat, e k.divNat k.modNat))).getD (b * n + j) d = [(w b j).val, (e b j).val] := by
    intro d
    rw [List.getD_eq_getElem?_getD, List.getElem?_ofFn, dif_pos hlt]
    simp only [Function.comp, Option.getD_some]
    rw [hj.1, hj.2]
  rw [hg]
  exact ⟨rfl, rfl⟩

/-- C97 is violated for a file whose blocks are separated by empty lines without one at the end: two bands of `n` points
are returned as one band of `2 n` points, without an error. -/
theorem C97_bands_violated (n : ℕ) (w e : Fin 2 → Fin n → Sci) (ls : Fin 2 → Fin n → Line) (blank : Line)
    (hl : ∀ b j, BandLine (w b j) (e b j) (ls b j)) (hb : Blank blank) :
    ∃ E W, bandStructure (List.ofFn (ls 0) ++ blank :: List.ofFn (ls 1)) = .ok ((1, 2 * n), E, W) := by
  set row : Fin 2 → List (Line × Option (Sci × Sci)) := fun b => List.ofFn fun j => (ls b j, some (w b j, e b j)) with hrow
  have h1 : ∀ b, (row b).map Prod.fst = List.ofFn (ls b) := fun b => by rw [hrow, List.map_ofFn]; rfl
  have h2 : ∀ b, (row b).filter (fun p => p.2.isNone) = [] := by
    intro b
    rw [List.filter_eq_nil_iff]
    intro p hp
    obtain ⟨j, rfl⟩ := (List.mem_ofFn' _ _).1 hp
    simp
  have h3 : ∀ b, ((row b).filterMap Prod.snd).length = n := by
    intro b
    have : row b = (List.ofFn fun j => (j : Fin n)).map fun j => (ls b j, some (w b j, e b j)) := by
      rw [List.map_ofFn]; rfl
    have h5 : (List.ofFn fun j => (j : Fin n)).filterMap (Prod.snd ∘ fun j => (ls b j, some (w b j, e b j)))
        = (List.ofFn fun j => (j : Fin n)).map fun j => (w b j, e b j) :=
      List.filterMap_eq_map_iff_forall_eq_some.2 fun x _ => rfl
    rw [this, List.filterMap_map, h5]
    simp
  have h4 : ∀ p ∈ row 0 ++ (blank, none) :: row 1,
      match p.2 with | some q => BandLine q.1 q.2 p.1 | none => Blank p.1 := by
    intro p hp
    simp only [List.mem_append, List.mem_cons] at hp
    rcases hp with hp | rfl | hp
    · obtain ⟨j, rfl⟩ := (List.mem_ofFn' _ _).1 hp
      exact hl 0 j
    · exact hb
    · obtain ⟨j, rfl⟩ := (List.mem_ofFn' _ _).1 hp
      exact hl 1 j
  have := bandStructure_eq (row 0 ++ (blank, none) :: row 1) 1 (2 * n) h4
    (by rw [List.filter_append, h2, List.filter_cons_of_pos (by rfl), h2]; rfl) one_ne_zero
    (by
      rw [List.filterMap_append, List.filterMap_cons_none (by rfl), List.length_append, h3, h3]
      ring) (by omega)
  rw [List.map_append, List.map_cons, h1, h1] at this
  exact ⟨_, _, this⟩

/-! ## Concrete lines meeting the hypotheses -/

/-- reading words from the left -/
def spacedCheck : List (List Char) → Line → Bool
  | [], l => l.all Char.isWhitespace
  | t :: ts, l =>
    let m := l.dropWhile Char.isWhitespace
    t ≠ [] && t.all (fun c => !c.isWhitespace) && t.isPrefixOf m &&
      (match m.drop t.length with
        | [] => true
        | c :: _ => c.isWhitespace) && spacedCheck ts (m.drop t.length)

theorem spaced_of_check (ts : List (List Char)) (l : Line) (h : spacedCheck ts l = true) : Spaced ts l := by
  induction ts generalizing l with
  | nil =>
    refine .nil l ?_
    simpa [spacedCheck] using h
  | cons t ts ih =>
    simp only [spacedCheck, Bool.and_eq_true, decide_eq_true_eq, List.all_eq_true] at h
    obtain ⟨⟨⟨⟨h1, h2⟩, h3⟩, h4⟩, h5⟩ := h
    obtain ⟨r, hr⟩ := List.isPrefixOf_iff_prefix.1 h3
    have hd : (l.dropWhile Char.isWhitespace).drop t.length = r := by rw [← hr, List.drop_left]
    rw [hd] at h4 h5
    have hl : l = l.takeWhile Char.isWhitespace ++ t ++ r := by
      rw [List.append_assoc, hr, List.takeWhile_append_dropWhile]
    rw [hl]
    refine .cons _ t ts r (fun c hc => List.mem_takeWhile_imp hc) h1 (fun c hc => by simpa using h2 c hc) (ih r h5) ?_
    match r, h4 with
    | [], _ => exact .inl rfl
    | c :: r, h4 => exact .inr ⟨c, r, rfl, h4⟩

example : VectorLine ⟨false, [3], [5, 2]⟩ ⟨true, [0], [1, 2]⟩ ⟨false, [1, 0], [0]⟩ "   a_1  3.52 -0.12 10.0\n".toList :=
  ⟨"a_1".toList, spaced_of_check _ _ (by decide), by decide, by decide, by decide, by decide⟩

set_option maxRecDepth 4000 in
example : CentreLine ![⟨true, [0], [1, 2, 3, 4, 5, 6]⟩, ⟨false, [1], [0, 0, 0, 0, 0, 1]⟩, ⟨false, [1, 0], [2, 5, 0, 0, 0, 0]⟩]
    "  WF centre and spread    1  ( -0.123456,  1.000001, 10.250000 )     1.2\n".toList := by
  refine ⟨"WF".toList, "centre".toList, "and".toList, "spread".toList, "1".toList, "(".toList, ")".toList, "1.2".toList,
    spaced_of_check _ _ (by decide), by decide, by decide, ?_⟩
  intro a
  fin_cases a <;> exact ⟨by simp, by simp, by simp⟩

example : "Final State".toList <:+: " Final State\n".toList ∧ ¬ "Sum of centres".toList <:+: " Final State\n".toList ∧
    "Sum of centres".toList <:+: "  Sum of centres and spreads (  0.0,  0.0,  0.0 )  2.4\n".toList := by decide

example : BandLine ⟨⟨false, [0], [1, 0]⟩, false, [0, 0]⟩ ⟨⟨true, [0], [5, 4]⟩, true, [0, 2]⟩
    "  0.10E+00 -0.54E-02\n".toList ∧ Blank "  \n".toList :=
  ⟨⟨spaced_of_check _ _ (by decide), by decide, by decide, by decide, by decide, by decide⟩, 2, rfl⟩

example : (⟨⟨true, [0], [5, 4]⟩, true, [0, 2]⟩ : Sci).val = -0.0054 := by
  norm_num [Sci.val, Dec.val, digitsVal]

end Verif.Wannier.Text
