import Verif.Symmetries.Lemmas
import Mathlib.Tactic.IntervalCases
import Mathlib.Tactic.LinearCombination
import Mathlib.Analysis.Complex.Basic

/-!
# Properties of the symmetrisation of Green's functions (C42, C43, C44)
-/

namespace Verif.Symmetries

/-- `d` has parity `p` in the variable `v`: independent statement in terms of pairs of mesh points.
Positions `w`, `w'` on the frequency mesh hold `ω` and `-ω` iff `w + w' + 1 = 2 h`. -/
def HasParity (s : Shape) : Variable → Parity → Data → Prop
  | .frequency, p, d => ∀ w w', w < 2 * s.h → w' < 2 * s.h → w + w' + 1 = 2 * s.h →
      ∀ k a b, k < s.nk → a < s.norb → b < s.norb → d w' k a b = p.sign * d w k a b
  | .momentum, p, d => ∀ k k', k < s.nk → k' < s.nk → Opposite s.dims k k' →
      ∀ w a b, w < 2 * s.h → a < s.norb → b < s.norb → d w k' a b = p.sign * d w k a b
  | .orbital, p, d => ∀ w k a b, w < 2 * s.h → k < s.nk → a < s.norb → b < s.norb →
      d w k b a = p.sign * d w k a b

/-- the two arrays agree -/
def Same (s : Shape) (d d' : Data) : Prop :=
  ∀ w k a b, w < 2 * s.h → k < s.nk → a < s.norb → b < s.norb → d w k a b = d' w k a b

/-- the strings accepted by the API -/
def Variable.name : Variable → String
  | .frequency => "frequency"
  | .momentum => "momentum"
  | .orbital => "orbital"

/-- the strings accepted by the API -/
def Parity.name : Parity → String
  | .even => "even"
  | .odd => "odd"

/-- the number returned by `check_symmetry` -/
def Parity.value : Parity → ℤ
  | .even => 1
  | .odd => -1

theorem parse_names (vs : List Variable) :
    (vs.map Variable.name).mapM parseVariable = some vs := by
  induction vs with
  | nil => rfl
  | cons v vs ih =>
    rw [List.map_cons, List.mapM_cons, ih]
    cases v <;> rfl

theorem parse_parities (ps : List Parity) :
    (ps.map Parity.name).mapM parseParity = some ps := by
  induction ps with
  | nil => rfl
  | cons v vs ih =>
    rw [List.map_cons, List.mapM_cons, ih]
    cases v <;> rfl

theorem enforce_ok (s : Shape) (vs : List Variable) (ps : List Parity) (d : Data)
    (h : vs.length = ps.length) :
    enforceSymmetry s (vs.map Variable.name) (ps.map Parity.name) d
      = .ok ((vs.zip ps).foldl (fun d vp => symmetrize s vp.1 vp.2 d) d) := by
  unfold enforceSymmetry
  rw [if_neg (by simpa using h), parse_names, parse_parities]

/-! ## C42: the enforced symmetry holds -/

/-- C42 (frequency): the result has the requested parity under `ω → -ω`, for every input. -/
theorem C42_frequency (s : Shape) (p : Parity) (d : Data) :
    ∃ d', enforceSymmetry s ["frequency"] [p.name] d = .ok d' ∧ HasParity s .frequency p d' := by
  refine ⟨symFrequency s p d, enforce_ok s [.frequency] [p] d rfl, ?_⟩
  intro w w' hw hw' hww k a b _ _ _
  have hs := sign_mul_self p
  by_cases h : w < s.h
  · have h' : ¬ w' < s.h := by omega
    simp only [symFrequency, if_pos h, if_neg h']
    rw [← mul_assoc, hs, one_mul, show w' - s.h = s.h - 1 - w by omega]
  · have h' : w' < s.h := by omega
    simp only [symFrequency, if_pos h', if_neg h]
    rw [show s.h - 1 - w' = w - s.h by omega]

theorem opposite_iff (s : Shape) (k k' : ℕ) (hk : k < s.nk) (hk' : k' < s.nk)
    (h : Opposite s.dims k k') : k' = neg s.dims k :=
  opposite_unique s.dims k _ _ hk hk' (neg_lt _ _ hk) h (opposite_neg _ _ hk)

/-- C42 (momentum): the result has the requested parity under `k → -k` on a Brillouin zone mesh of
any dimensions, for every input. -/
theorem C42_momentum (s : Shape) (p : Parity) (d : Data) :
    ∃ d', enforceSymmetry s ["momentum"] [p.name] d = .ok d' ∧ HasParity s .momentum p d' := by
  refine ⟨symMomentum s p d, enforce_ok s [.momentum] [p] d rfl, ?_⟩
  intro k k' hk hk' ho w a b _ _ _
  have e := opposite_iff s k k' hk hk' ho
  subst e
  have hs := sign_mul_self p
  rw [symMomentum_apply s p d _ _ _ _ hk', symMomentum_apply s p d _ _ _ _ hk,
    neg_neg' s.dims k hk]
  by_cases h : neg s.dims k = k
  · rw [h]
    simp only [if_true]
    cases p <;> simp [Parity.sign]
  · have h' : k ≠ neg s.dims k := fun e => h e.symm
    rw [if_neg h, if_neg h']
    rcases lt_or_gt_of_ne h with hlt | hlt
    · have : ¬ k < neg s.dims k := by omega
      rw [if_pos hlt, if_neg this]
    · have : ¬ neg s.dims k < k := by omega
      rw [if_pos hlt, if_neg this, ← mul_assoc, hs, one_mul]

/-- C42 (orbital), partial: the result has the requested parity under exchange of the two orbital
indices provided there are at most three orbitals. The full claim fails from four orbitals on
(`C42_orbital_violated`). -/
theorem C42_orbital_partial (s : Shape) (hs : s.norb ≤ 3) (p : Parity) (d : Data) :
    ∃ d', enforceSymmetry s ["orbital"] [p.name] d = .ok d' ∧ HasParity s .orbital p d' := by
  refine ⟨symOrbital s p d, enforce_ok s [.orbital] [p] d rfl, ?_⟩
  intro w k a b _ _ ha hb
  rw [symOrbital_apply s hs p d _ _ _ _ hb ha, symOrbital_apply s hs p d _ _ _ _ ha hb]
  have hsg := sign_mul_self p
  rcases lt_trichotomy a b with h | h | h
  · have h' : ¬ b < a := by omega
    rw [if_neg h', if_pos h, if_pos h]
  · subst h
    simp only [lt_irrefl, if_false]
    cases p <;> simp [Parity.sign]
  · have h' : ¬ a < b := by omega
    rw [if_pos h, if_neg h', if_pos h, ← mul_assoc, hsg, one_mul]

/-- C42 is violated in orbital space for every number of orbitals from four on (with at least one
frequency and one momentum), for either parity: there is an input whose result does not have the
requested parity. -/
theorem C42_orbital_violated (s : Shape) (h4 : 4 ≤ s.norb) (hh : 0 < s.h) (hk : 0 < s.nk)
    (p : Parity) :
    ∃ d d', enforceSymmetry s ["orbital"] [p.name] d = .ok d' ∧ ¬ HasParity s .orbital p d' := by
  refine ⟨fun _ _ a b => if a = 2 ∧ b = 1 then 1 else 0, _, enforce_ok s [.orbital] [p] _ rfl, ?_⟩
  intro h
  obtain ⟨h1, h2⟩ := symOrbital_four s h4 p (fun _ _ a b => if a = 2 ∧ b = 1 then 1 else 0) 0 0
    (by simp)
  have h' := h 0 0 3 0 (by omega) hk (by omega) (by omega)
  change symOrbital s p _ 0 0 0 3 = _ * symOrbital s p _ 0 0 3 0 at h'
  rw [h1, h2] at h'
  simp at h'

/-- C42 (check, frequency): a function of parity `p` with an entry larger than the tolerance is
reported as such. -/
theorem C42_check_frequency (s : Shape) (p : Parity) (d : Data) (atol : ℝ) (h0 : 0 ≤ atol)
    (hd : HasParity s .frequency p d)
    (hbig : ∃ w k a b, w < 2 * s.h ∧ k < s.nk ∧ a < s.norb ∧ b < s.norb ∧ atol < ‖d w k a b‖) :
    checkFrequency s atol d = some p.value := by
  unfold checkFrequency
  simp only
  cases p with
  | even =>
    rw [if_pos, Parity.value]
    intro w hw k hk a ha b hb
    have := hd (s.h - 1 - w) (s.h + w) (by omega) (by omega) (by omega) k a b hk ha hb
    rw [this, Parity.sign, one_mul]
    exact close_refl h0 _
  | odd =>
    rw [if_neg, if_pos, Parity.value]
    · intro w hw k hk a ha b hb
      have := hd (s.h - 1 - w) (s.h + w) (by omega) (by omega) (by omega) k a b hk ha hb
      rw [this, Parity.sign, neg_one_mul, neg_one_mul, neg_neg]
      exact close_refl h0 _
    · intro hall
      obtain ⟨w, k, a, b, hw, hk, ha, hb, hlt⟩ := hbig
      have key : ∀ x : ℂ, atol < ‖x‖ → ¬ close atol x (-x) := fun x hx =>
        not_close_neg (by unfold close; rw [sub_zero, norm_zero]; linarith) h0
      by_cases h : w < s.h
      · have h1 := hall (s.h - 1 - w) (by omega) k hk a ha b hb
        rw [show s.h - 1 - (s.h - 1 - w) = w by omega,
          hd w (s.h + (s.h - 1 - w)) hw (by omega) (by omega) k a b hk ha hb, Parity.sign,
          neg_one_mul] at h1
        exact key _ hlt h1
      · have h1 := hall (w - s.h) (by omega) k hk a ha b hb
        rw [show s.h + (w - s.h) = w by omega] at h1
        have h2 := hd w (s.h - 1 - (w - s.h)) hw (by omega) (by omega) k a b hk ha hb
        rw [Parity.sign, neg_one_mul] at h2
        have h3 : d w k a b = - d (s.h - 1 - (w - s.h)) k a b := by rw [h2, neg_neg]
        rw [h3] at h1
        refine key _ ?_ h1
        rw [h2, norm_neg]
        exact hlt

theorem momentumSigns_spec (s : Shape) (p : Parity) (d : Data) (atol : ℝ) (h0 : 0 ≤ atol)
    (hd : HasParity s .momentum p d) (L : List ℕ) (hL : ∀ k ∈ L, k < s.nk) :
    ∃ signs, momentumSigns s atol d L = some signs ∧
      (∀ y ∈ signs, y = p.value) ∧
      ((∃ w k a b, w < 2 * s.h ∧ k ∈ L ∧ a < s.norb ∧ b < s.norb ∧ 2 * atol < ‖d w k a b‖ ∧
        2 / 100000000 < ‖d w k a b‖) → signs ≠ []) := by
  induction L with
  | nil => exact ⟨[], rfl, by simp, by simp⟩
  | cons idx L ih =>
    obtain ⟨signs, h1, h2, h3⟩ := ih fun k hk => hL k (List.mem_cons_of_mem _ hk)
    have hidx := hL idx List.mem_cons_self
    have hinv : invIdx s.dims idx = neg s.dims idx := invIdx_eq _ _ hidx
    have hn := neg_lt s.dims idx hidx
    have hpar : ∀ w a b, w < 2 * s.h → a < s.norb → b < s.norb →
        d w (neg s.dims idx) a b = p.sign * d w idx a b :=
      fun w a b => hd idx _ hidx hn (opposite_neg _ _ hidx) w a b
    have hnorm : ∀ w a b, w < 2 * s.h → a < s.norb → b < s.norb →
        ‖d w (neg s.dims idx) a b‖ = ‖d w idx a b‖ := by
      intro w a b hw ha hb
      rw [hpar w a b hw ha hb, Complex.norm_mul]
      cases p <;> simp [Parity.sign]
    -- an entry above the thresholds at `idx`
    have hskip : (∀ w < 2 * s.h, ∀ a < s.norb, ∀ b < s.norb,
          ‖d w idx a b‖ ≤ 2 * atol ∨ ‖d w idx a b‖ ≤ 2 / 100000000) →
        (∃ w k a b, w < 2 * s.h ∧ k ∈ idx :: L ∧ a < s.norb ∧ b < s.norb ∧ 2 * atol < ‖d w k a b‖ ∧
          2 / 100000000 < ‖d w k a b‖) → signs ≠ [] := by
      rintro hsmall ⟨w, k, a, b, hw, hk, ha, hb, hb1, hb2⟩
      rcases List.mem_cons.1 hk with rfl | hk
      · rcases hsmall w hw a ha b hb with h | h <;> linarith
      · exact h3 ⟨w, k, a, b, hw, hk, ha, hb, hb1, hb2⟩
    simp only [momentumSigns]
    rw [hinv]
    by_cases hz : (∀ w < 2 * s.h, ∀ a < s.norb, ∀ b < s.norb, close atol (d w idx a b) 0) ∧
        ∀ w < 2 * s.h, ∀ a < s.norb, ∀ b < s.norb, close atol (d w (neg s.dims idx) a b) 0
    · rw [if_pos hz]
      refine ⟨signs, h1, h2, hskip fun w hw a ha b hb => Or.inl ?_⟩
      have := hz.1 w hw a ha b hb
      unfold close at this
      rw [sub_zero, norm_zero, mul_zero, add_zero] at this
      linarith
    · rw [if_neg hz]
      have hbigx : ¬ ∀ w < 2 * s.h, ∀ a < s.norb, ∀ b < s.norb, close atol (d w idx a b) 0 := by
        intro h
        refine hz ⟨h, fun w hw a ha b hb => ?_⟩
        have := h w hw a ha b hb
        unfold close at *
        rw [sub_zero] at *
        rw [hnorm w a b hw ha hb]
        exact this
      by_cases hself : idx = neg s.dims idx
      · rw [if_pos hself]
        cases p with
        | odd =>
          exfalso
          refine hbigx fun w hw a ha b hb => ?_
          have := hpar w a b hw ha hb
          rw [← hself, Parity.sign, neg_one_mul] at this
          have hzero : d w idx a b = 0 := by
            have h2 : (2 : ℂ) * d w idx a b = 0 := by linear_combination this
            simpa using h2
          rw [hzero]
          exact close_refl h0 0
        | even =>
          by_cases hnz : ¬ ∀ w < 2 * s.h, ∀ a < s.norb, ∀ b < s.norb,
              close (1 / 100000000) 0 (d w idx a b)
          · rw [if_pos hnz, h1]
            refine ⟨1 :: signs, rfl, ?_, fun _ => by simp⟩
            intro y hy
            rcases List.mem_cons.1 hy with rfl | hy
            · rfl
            · exact h2 y hy
          · rw [if_neg hnz]
            refine ⟨signs, h1, h2, hskip fun w hw a ha b hb => Or.inr ?_⟩
            have := not_not.1 hnz w hw a ha b hb
            unfold close at this
            rw [zero_sub, norm_neg] at this
            have := norm_nonneg (d w idx a b)
            linarith
      · rw [if_neg hself]
        cases p with
        | even =>
          rw [if_pos, h1]
          · refine ⟨1 :: signs, rfl, ?_, fun _ => by simp⟩
            intro y hy
            rcases List.mem_cons.1 hy with rfl | hy
            · rfl
            · exact h2 y hy
          · intro w hw a ha b hb
            rw [hpar w a b hw ha hb, Parity.sign, one_mul]
            exact close_refl h0 _
        | odd =>
          rw [if_neg, if_pos, h1]
          · refine ⟨-1 :: signs, rfl, ?_, fun _ => by simp⟩
            intro y hy
            rcases List.mem_cons.1 hy with rfl | hy
            · rfl
            · exact h2 y hy
          · intro w hw a ha b hb
            rw [hpar w a b hw ha hb, Parity.sign]
            exact close_refl h0 _
          · intro hall
            refine hbigx fun w hw a ha b hb => ?_
            by_contra hc
            have h := hall w hw a ha b hb
            rw [hpar w a b hw ha hb, Parity.sign, neg_one_mul] at h
            exact not_close_neg hc h0 h

/-- C42 (check, momentum): a function of parity `p` that is not numerically zero is reported as
such. -/
theorem C42_check_momentum (s : Shape) (p : Parity) (d : Data) (atol : ℝ) (h0 : 0 ≤ atol)
    (hd : HasParity s .momentum p d)
    (hbig : ∃ w k a b, w < 2 * s.h ∧ k < s.nk ∧ a < s.norb ∧ b < s.norb ∧ 2 * atol < ‖d w k a b‖ ∧
      2 / 100000000 < ‖d w k a b‖) :
    checkMomentum s atol d = some p.value := by
  obtain ⟨signs, h1, h2, h3⟩ := momentumSigns_spec s p d atol h0 hd (List.range s.nk)
    (fun k hk => List.mem_range.1 hk)
  obtain ⟨w, k, a, b, hw, hk, ha, hb, hb1, hb2⟩ := hbig
  have hne := h3 ⟨w, k, a, b, hw, List.mem_range.2 hk, ha, hb, hb1, hb2⟩
  rw [checkMomentum, h1]
  exact overallSign_of h2 hne

theorem zip_three (n : ℕ) (hn : n ≤ 3) : ∀ x ∈ (triu n).zip (tril n),
    x.1.1 < n ∧ x.1.2 < n ∧ x.2.1 = x.1.2 ∧ x.2.2 = x.1.1 ∧ x.1.1 ≠ x.1.2 := by
  interval_cases n <;> decide

/-- C42 (check, orbital), partial: with two or three orbitals an even function is reported even,
and an odd one is reported odd when every off-diagonal pair is larger than the tolerance somewhere.
Missing: the latter condition cannot be dropped (`C42_check_orbital_violated`). -/
theorem C42_check_orbital_partial (s : Shape) (hn : 2 ≤ s.norb) (hn3 : s.norb ≤ 3) (p : Parity)
    (d : Data) (atol : ℝ) (h0 : 0 ≤ atol) (hd : HasParity s .orbital p d)
    (hbig : p = .odd → ∀ a b, a < s.norb → b < s.norb → a ≠ b →
      ∃ w k, w < 2 * s.h ∧ k < s.nk ∧ atol < ‖d w k a b‖) :
    checkOrbital s atol d = some p.value := by
  have hz := zip_three s.norb hn3
  have hne : (triu s.norb).zip (tril s.norb) ≠ [] := by
    have : s.norb = 2 ∨ s.norb = 3 := by omega
    rcases this with h | h <;> rw [h] <;> decide
  have key : ∀ L : List ((ℕ × ℕ) × (ℕ × ℕ)), (∀ x ∈ L,
      x.1.1 < s.norb ∧ x.1.2 < s.norb ∧ x.2.1 = x.1.2 ∧ x.2.2 = x.1.1 ∧ x.1.1 ≠ x.1.2) →
      ∃ signs, triangleSigns s atol d L = some signs ∧ signs.length = L.length ∧
        ∀ y ∈ signs, y = p.value := by
    intro L hL
    induction L with
    | nil => exact ⟨[], rfl, rfl, by simp⟩
    | cons x L ih =>
      obtain ⟨signs, h1, hlen, h2⟩ := ih fun y hy => hL y (List.mem_cons_of_mem _ hy)
      obtain ⟨hx1, hx2, hx3, hx4, hx5⟩ := hL x List.mem_cons_self
      simp only [triangleSigns]
      have hpar : ∀ w < 2 * s.h, ∀ k < s.nk, d w k x.2.1 x.2.2 = p.sign * d w k x.1.1 x.1.2 := by
        intro w hw k hk
        rw [hx3, hx4]
        exact hd w k _ _ hw hk hx1 hx2
      cases p with
      | even =>
        rw [if_pos, h1]
        · refine ⟨1 :: signs, rfl, by simp [hlen], ?_⟩
          intro y hy
          rcases List.mem_cons.1 hy with rfl | hy
          · rfl
          · exact h2 y hy
        · intro w hw k hk
          rw [hpar w hw k hk, Parity.sign, one_mul]
          exact close_refl h0 _
      | odd =>
        rw [if_neg, if_pos, h1]
        · refine ⟨-1 :: signs, rfl, by simp [hlen], ?_⟩
          intro y hy
          rcases List.mem_cons.1 hy with rfl | hy
          · rfl
          · exact h2 y hy
        · intro w hw k hk
          rw [hpar w hw k hk, Parity.sign, neg_one_mul, neg_one_mul, neg_neg]
          exact close_refl h0 _
        · intro hall
          obtain ⟨w, k, hw, hk, hlt⟩ := hbig rfl _ _ hx1 hx2 hx5
          have h := hall w hw k hk
          rw [hpar w hw k hk, Parity.sign, neg_one_mul] at h
          refine not_close_neg ?_ h0 h
          unfold close
          rw [sub_zero, norm_zero]
          linarith
  obtain ⟨signs, h1, hlen, h2⟩ := key _ hz
  rw [checkOrbital, h1]
  refine overallSign_of ?_ ?_
  · intro y hy
    rcases List.mem_append.1 hy with hy | hy
    · exact h2 y hy
    · simp only [diagonalSigns, List.mem_flatMap, List.mem_range] at hy
      obtain ⟨i, hi, hy⟩ := hy
      split_ifs at hy with hc
      · simp at hy
      · cases p with
        | even => simpa [Parity.value] using hy
        | odd =>
          exfalso
          refine hc fun w hw k hk => ?_
          have := hd w k i i hw hk hi hi
          rw [Parity.sign] at this
          have hzero : d w k i i = 0 := by
            have h2 : (2 : ℂ) * d w k i i = 0 := by linear_combination this
            simpa using h2
          rw [hzero]
          exact close_refl h0 0
  · intro he
    have := congrArg List.length he
    rw [List.length_append, hlen] at this
    have h3 : ((triu s.norb).zip (tril s.norb)).length = 0 := by
      rw [List.length_nil] at this; omega
    exact hne (List.length_eq_zero_iff.1 h3)

/-- C42 (check) is violated: after enforcing odd orbital symmetry on a three orbital function whose
`(0, 1)` and `(1, 0)` components vanish, the function is odd in the orbitals but
`check_symmetry` reports that the symmetry is undefined (`None`). -/
theorem C42_check_orbital_violated (s : Shape) (h3 : s.norb = 3) (hh : 0 < s.h) (hk : 0 < s.nk) :
    ∃ d d', enforceSymmetry s ["orbital"] ["odd"] d = .ok d' ∧ HasParity s .orbital .odd d' ∧
      checkOrbital s (1 / 100000000) d' = none := by
  set d0 : Data := fun _ _ a b => if a = 2 ∧ b = 1 then 1 else 0 with hd0
  obtain ⟨d', h1, h2⟩ := C42_orbital_partial s h3.le .odd d0
  refine ⟨d0, d', h1, h2, ?_⟩
  have e1 : enforceSymmetry s ["orbital"] [Parity.odd.name] d0 = .ok (symOrbital s .odd d0) :=
    enforce_ok s [.orbital] [.odd] d0 rfl
  rw [e1] at h1
  obtain rfl : symOrbital s .odd d0 = d' := by injection h1
  have hz : (triu s.norb).zip (tril s.norb)
      = [((0, 1), (1, 0)), ((0, 2), (2, 0)), ((1, 2), (2, 1))] := by rw [h3]; decide
  have v : ∀ w k a b, a < 3 → b < 3 → symOrbital s .odd d0 w k a b
      = if a < b then d0 w k b a else if b < a then -d0 w k a b else 0 := by
    intro w k a b ha hb
    rw [symOrbital_apply s h3.le .odd d0 w k a b (by omega) (by omega)]
    simp [Parity.sign]
  have c0 : close (1 / 100000000) 0 0 := close_refl (by norm_num) 0
  have c1 : ¬ close (1 / 100000000) (1 : ℂ) (-1) := by
    unfold close
    norm_num [show (1 : ℂ) + 1 = 2 by norm_num]
  have c2 : close (1 / 100000000) (1 : ℂ) 1 := close_refl (by norm_num) 1
  rw [checkOrbital, hz]
  have ht : triangleSigns s (1 / 100000000) (symOrbital s .odd d0)
      [((0, 1), (1, 0)), ((0, 2), (2, 0)), ((1, 2), (2, 1))] = some [1, 1, -1] := by
    simp only [triangleSigns]
    rw [if_pos, if_pos, if_neg, if_pos]
    · rfl
    · intro w _ k _
      rw [v _ _ _ _ (by omega) (by omega), v _ _ _ _ (by omega) (by omega)]
      simpa [hd0] using c2
    · intro h
      have := h 0 (by omega) 0 hk
      rw [v _ _ _ _ (by omega) (by omega), v _ _ _ _ (by omega) (by omega)] at this
      simp [hd0] at this
      exact c1 (by simpa using this)
    · intro w _ k _
      rw [v _ _ _ _ (by omega) (by omega), v _ _ _ _ (by omega) (by omega)]
      simpa [hd0] using c0
    · intro w _ k _
      rw [v _ _ _ _ (by omega) (by omega), v _ _ _ _ (by omega) (by omega)]
      simpa [hd0] using c0
  have hdiag : diagonalSigns s (1 / 100000000) (symOrbital s .odd d0) = [] := by
    simp only [diagonalSigns, List.flatMap_eq_nil_iff, List.mem_range]
    intro i hi
    rw [if_pos]
    intro w _ k _
    rw [v _ _ _ _ (by omega) (by omega)]
    simpa using c0
  rw [ht, hdiag]
  rfl

/-- hypotheses of the checks are satisfiable by a non trivial function: one odd frequency pair on a
two point momentum mesh -/
example : HasParity ⟨1, [2], 1⟩ .frequency .odd
    (symFrequency ⟨1, [2], 1⟩ .odd fun _ k _ _ => (k : ℂ) + 1) := by
  obtain ⟨d', h1, h2⟩ := C42_frequency ⟨1, [2], 1⟩ .odd fun _ k _ _ => (k : ℂ) + 1
  have e := enforce_ok ⟨1, [2], 1⟩ [.frequency] [.odd] (fun _ k _ _ => (k : ℂ) + 1) rfl
  have e' := e.symm.trans h1
  injection e' with e'
  rw [← e'] at h2
  exact h2

/-- ... and it is not zero -/
example : symFrequency ⟨1, [2], 1⟩ .odd (fun _ k _ _ => (k : ℂ) + 1) 0 1 0 0 = -2 := by
  simp [symFrequency, Parity.sign]
  norm_num

/-- opposite points of a 2 x 3 mesh: `(1, 1)` has linear index 4, `-(1, 1) = (1, 2)` index 5 -/
example : Opposite [2, 3] 4 5 ∧ invIdx [2, 1, 3] 4 = 5 := by
  refine ⟨?_, by decide⟩
  simp [Opposite]

/-! ## C43: an already present symmetry leaves the function unchanged -/

/-- C43 (frequency) -/
theorem C43_frequency (s : Shape) (p : Parity) (d : Data) (hd : HasParity s .frequency p d) :
    Same s (symmetrize s .frequency p d) d := by
  intro w k a b hw hk ha hb
  change symFrequency s p d w k a b = _
  by_cases h : w < s.h
  · simp only [symFrequency, if_pos h]
    have := hd (s.h + (s.h - 1 - w)) w (by omega) hw (by omega) k a b hk ha hb
    exact this.symm
  · simp only [symFrequency, if_neg h]
    rw [show s.h + (w - s.h) = w by omega]

/-- C43 (momentum) -/
theorem C43_momentum (s : Shape) (p : Parity) (d : Data) (hd : HasParity s .momentum p d) :
    Same s (symmetrize s .momentum p d) d := by
  intro w k a b hw hk ha hb
  change symMomentum s p d w k a b = _
  have hn := neg_lt s.dims k hk
  rw [symMomentum_apply s p d _ _ _ _ hk]
  by_cases h : neg s.dims k = k
  · rw [if_pos h]
    cases p with
    | even => simp
    | odd =>
      have := hd k k hk hk (by have := opposite_neg s.dims k hk; rwa [h] at this) w a b hw ha hb
      rw [Parity.sign] at this
      have h2 : (2 : ℂ) * d w k a b = 0 := by linear_combination this
      have h3 : d w k a b = 0 := by simpa using h2
      simp [h3]
  · rw [if_neg h]
    split_ifs with hlt
    · exact (hd _ _ hn hk (opposite_symm _ _ _ (opposite_neg s.dims k hk)) w a b hw ha hb).symm
    · rfl

/-- C43 (orbital), partial: an even function of at most three orbitals is unchanged. -/
theorem C43_orbital_even_partial (s : Shape) (h3 : s.norb ≤ 3) (d : Data)
    (hd : HasParity s .orbital .even d) : Same s (symmetrize s .orbital .even d) d := by
  intro w k a b hw hk ha hb
  change symOrbital s .even d w k a b = _
  rw [symOrbital_apply s h3 .even d _ _ _ _ ha hb]
  have := hd w k a b hw hk ha hb
  rw [Parity.sign, one_mul] at this
  split_ifs <;> simp_all [Parity.sign]

/-- C43 is violated for odd orbital symmetry: an odd function of at most three orbitals comes back
with the opposite sign. -/
theorem C43_orbital_odd (s : Shape) (h3 : s.norb ≤ 3) (d : Data)
    (hd : HasParity s .orbital .odd d) :
    Same s (symmetrize s .orbital .odd d) fun w k a b => -d w k a b := by
  intro w k a b hw hk ha hb
  change symOrbital s .odd d w k a b = _
  rw [symOrbital_apply s h3 .odd d _ _ _ _ ha hb]
  have h1 := hd w k a b hw hk ha hb
  rw [Parity.sign, neg_one_mul] at h1
  rcases lt_trichotomy a b with h | h | h
  · rw [if_pos h, h1]
  · subst h
    have h2 : (2 : ℂ) * d w k a a = 0 := by linear_combination h1
    have h3 : d w k a a = 0 := by simpa using h2
    simp [h3]
  · rw [if_neg (by omega), if_pos h, Parity.sign, neg_one_mul]

/-- C43 is violated: a two orbital function that is odd in the orbitals is changed. -/
theorem C43_orbital_odd_violated (s : Shape) (h2 : s.norb = 2) (hh : 0 < s.h) (hk : 0 < s.nk) :
    ∃ d, HasParity s .orbital .odd d ∧ ¬ Same s (symmetrize s .orbital .odd d) d := by
  refine ⟨fun _ _ a b => (b : ℂ) - a, ?_, ?_⟩
  · intro w k a b _ _ _ _
    simp [Parity.sign]
  · intro h
    have hd : HasParity s .orbital .odd fun _ _ a b => (b : ℂ) - a := by
      intro w k a b _ _ _ _
      simp [Parity.sign]
    have h1 := C43_orbital_odd s (by omega) _ hd 0 0 0 1 (by omega) hk (by omega) (by omega)
    have h3 := h 0 0 0 1 (by omega) hk (by omega) (by omega)
    rw [h1] at h3
    norm_num at h3

/-- C43 is violated for even orbital symmetry with four or more orbitals. -/
theorem C43_orbital_even_violated (s : Shape) (h4 : 4 ≤ s.norb) (hh : 0 < s.h) (hk : 0 < s.nk) :
    ∃ d, HasParity s .orbital .even d ∧ ¬ Same s (symmetrize s .orbital .even d) d := by
  refine ⟨fun _ _ a b => if (a = 2 ∧ b = 1) ∨ (a = 1 ∧ b = 2) then 1 else 0, ?_, ?_⟩
  · intro w k a b _ _ _ _
    simp only [Parity.sign, one_mul]
    congr 1
    apply propext
    tauto
  · intro h
    have h1 := (symOrbital_four s h4 .even
      (fun _ _ a b => if (a = 2 ∧ b = 1) ∨ (a = 1 ∧ b = 2) then 1 else 0) 0 0 (by simp)).1
    have h2 := h 0 0 0 3 (by omega) hk (by omega) (by omega)
    change symOrbital s .even _ 0 0 0 3 = _ at h2
    rw [h1] at h2
    simp at h2

/-- Enforcing frequency or momentum symmetry twice is the same as once. -/
theorem C43_idempotent (s : Shape) (v : Variable) (hv : v ≠ .orbital) (p : Parity) (d : Data) :
    Same s (symmetrize s v p (symmetrize s v p d)) (symmetrize s v p d) := by
  cases v with
  | frequency =>
    refine C43_frequency s p _ ?_
    obtain ⟨d', h1, h2⟩ := C42_frequency s p d
    have e : enforceSymmetry s ["frequency"] [p.name] d = .ok (symmetrize s .frequency p d) :=
      enforce_ok s [.frequency] [p] d rfl
    rw [e] at h1
    injection h1 with h1
    rw [h1]; exact h2
  | momentum =>
    refine C43_momentum s p _ ?_
    obtain ⟨d', h1, h2⟩ := C42_momentum s p d
    have e : enforceSymmetry s ["momentum"] [p.name] d = .ok (symmetrize s .momentum p d) :=
      enforce_ok s [.momentum] [p] d rfl
    rw [e] at h1
    injection h1 with h1
    rw [h1]; exact h2
  | orbital => exact absurd rfl hv

/-! ## C44: several symmetries -/

/-- symmetrisations in different variables commute -/
theorem symmetrize_comm (s : Shape) (v v' : Variable) (h : v ≠ v') (p p' : Parity) (d : Data) :
    symmetrize s v p (symmetrize s v' p' d) = symmetrize s v' p' (symmetrize s v p d) := by
  have wk : ∀ p p' d, symFrequency s p (symMomentum s p' d) = symMomentum s p' (symFrequency s p d) := by
    intro p p' d
    funext w k a b
    obtain ⟨c, w', h1⟩ := monoW s p w
    obtain ⟨c', k', h2⟩ := monoK s p' k
    rw [h1, h2, h2, h1]; ring
  have wo : ∀ p p' d, symFrequency s p (symOrbital s p' d) = symOrbital s p' (symFrequency s p d) := by
    intro p p' d
    funext w k a b
    obtain ⟨c, w', h1⟩ := monoW s p w
    obtain ⟨c', a', b', h2⟩ := monoO s p' a b
    rw [h1, h2, h2, h1]; ring
  have ko : ∀ p p' d, symMomentum s p (symOrbital s p' d) = symOrbital s p' (symMomentum s p d) := by
    intro p p' d
    funext w k a b
    obtain ⟨c, w', h1⟩ := monoK s p k
    obtain ⟨c', a', b', h2⟩ := monoO s p' a b
    rw [h1, h2, h2, h1]; ring
  cases v <;> cases v' <;> first
    | exact absurd rfl h
    | exact wk _ _ _
    | exact wo _ _ _
    | exact ko _ _ _
    | exact (wk _ _ _).symm
    | exact (wo _ _ _).symm
    | exact (ko _ _ _).symm

theorem perm_fold (s : Shape) (L L' : List (Variable × Parity)) (hp : L.Perm L')
    (hn : (L.map Prod.fst).Nodup) (d : Data) :
    L.foldl (fun d vp => symmetrize s vp.1 vp.2 d) d
      = L'.foldl (fun d vp => symmetrize s vp.1 vp.2 d) d := by
  refine hp.foldl_eq' ?_ d
  intro x hx y hy z
  by_cases h : x.1 = y.1
  · have : x = y := List.inj_on_of_nodup_map hn hx hy h
    rw [this]
  · exact symmetrize_comm s _ _ (fun e => h e.symm) _ _ _

/-- C44 (order): with distinct variables the order in which the symmetries are listed does not
matter: the results are identical, for any number of orbitals. -/
theorem C44_order (s : Shape) (vs vs' : List Variable) (ps ps' : List Parity)
    (hl : vs.length = ps.length) (hl' : vs'.length = ps'.length) (hn : vs.Nodup)
    (hp : (vs.zip ps).Perm (vs'.zip ps')) (d : Data) :
    enforceSymmetry s (vs.map Variable.name) (ps.map Parity.name) d
      = enforceSymmetry s (vs'.map Variable.name) (ps'.map Parity.name) d := by
  rw [enforce_ok s vs ps d hl, enforce_ok s vs' ps' d hl', perm_fold s _ _ hp]
  rwa [List.map_fst_zip hl.le]

/-- C44 (all requested), partial: with distinct variables the result has every requested parity;
the orbital one provided there are at most three orbitals (missing: four and more, where C42 itself
fails). -/
theorem C44_all_partial (s : Shape) (vs : List Variable) (ps : List Parity)
    (hl : vs.length = ps.length) (hn : vs.Nodup) (d : Data) :
    ∃ d', enforceSymmetry s (vs.map Variable.name) (ps.map Parity.name) d = .ok d' ∧
      ∀ v p, (v, p) ∈ vs.zip ps → (v = .orbital → s.norb ≤ 3) → HasParity s v p d' := by
  refine ⟨_, enforce_ok s vs ps d hl, ?_⟩
  intro v p hvp hv3
  obtain ⟨l1, l2, e⟩ := List.append_of_mem hvp
  have hperm : (vs.zip ps).Perm ((l1 ++ l2) ++ [(v, p)]) := by
    rw [e, List.append_assoc]
    exact List.Perm.append_left _ (List.perm_append_singleton _ _).symm
  rw [perm_fold s _ _ hperm (by rwa [List.map_fst_zip hl.le]), List.foldl_append, List.foldl_cons,
    List.foldl_nil]
  generalize (l1 ++ l2).foldl (fun d vp => symmetrize s vp.1 vp.2 d) d = d1
  cases v with
  | frequency =>
    obtain ⟨d', h1, h2⟩ := C42_frequency s p d1
    have e : enforceSymmetry s ["frequency"] [p.name] d1 = .ok (symmetrize s .frequency p d1) :=
      enforce_ok s [.frequency] [p] d1 rfl
    rw [e] at h1
    injection h1 with h1
    rw [h1]; exact h2
  | momentum =>
    obtain ⟨d', h1, h2⟩ := C42_momentum s p d1
    have e : enforceSymmetry s ["momentum"] [p.name] d1 = .ok (symmetrize s .momentum p d1) :=
      enforce_ok s [.momentum] [p] d1 rfl
    rw [e] at h1
    injection h1 with h1
    rw [h1]; exact h2
  | orbital =>
    obtain ⟨d', h1, h2⟩ := C42_orbital_partial s (hv3 rfl) p d1
    have e : enforceSymmetry s ["orbital"] [p.name] d1 = .ok (symmetrize s .orbital p d1) :=
      enforce_ok s [.orbital] [p] d1 rfl
    rw [e] at h1
    injection h1 with h1
    rw [h1]; exact h2

/-- C44 is violated for every number of orbitals from four on: whatever frequency parity is asked
for together with an orbital parity, and in whichever order, there is an input whose result has the
frequency parity but not the orbital one. -/
theorem C44_orbital_violated (s : Shape) (h4 : 4 ≤ s.norb) (hh : 0 < s.h) (hk : 0 < s.nk)
    (p q : Parity) :
    ∃ d d', enforceSymmetry s ["orbital", "frequency"] [p.name, q.name] d = .ok d' ∧
      enforceSymmetry s ["frequency", "orbital"] [q.name, p.name] d = .ok d' ∧
      HasParity s .frequency q d' ∧ ¬ HasParity s .orbital p d' := by
  have e := fun d => enforce_ok s [.orbital, .frequency] [p, q] d rfl
  refine ⟨fun _ _ a b => if a = 2 ∧ b = 1 then 1 else 0, _, e _, ?_, ?_, ?_⟩
  · refine Eq.trans ?_ (e _)
    exact C44_order s [.frequency, .orbital] [.orbital, .frequency] [q, p] [p, q] rfl rfl (by simp)
      (List.Perm.swap _ _ _) _
  · obtain ⟨d', h1, h2⟩ := C42_frequency s q
      (symmetrize s .orbital p fun _ _ a b => if a = 2 ∧ b = 1 then 1 else 0)
    rw [show enforceSymmetry s ["frequency"] [q.name] _ = _ from
      enforce_ok s [.frequency] [q] _ rfl] at h1
    injection h1 with h1
    exact h1 ▸ h2
  · intro h
    obtain ⟨h1, h2⟩ := symOrbital_four s h4 p (fun _ _ a b => if a = 2 ∧ b = 1 then 1 else 0)
      s.h 0 (by simp)
    have h' := h s.h 0 3 0 (by omega) hk (by omega) (by omega)
    change symFrequency s q (symOrbital s p _) s.h 0 0 3 =
      _ * symFrequency s q (symOrbital s p _) s.h 0 3 0 at h'
    simp only [symFrequency, lt_irrefl, if_false, Nat.sub_self, Nat.add_zero] at h'
    rw [h1, h2] at h'
    simp at h'

/-- C44 (refusals): different numbers of variables and symmetries, an unknown variable and an
unknown symmetry are each refused. -/
theorem C44_refuses (s : Shape) (names parities : List String) (d : Data)
    (h : names.length ≠ parities.length ∨ (∃ x ∈ names, parseVariable x = none) ∨
      ∃ x ∈ parities, parseParity x = none) :
    ∃ m, enforceSymmetry s names parities d = .error m := by
  have aux : ∀ {α : Type} (f : String → Option α) (l : List String) (r : List α),
      l.mapM f = some r → ∀ x ∈ l, f x ≠ none := by
    intro α f l
    induction l with
    | nil => simp
    | cons y l ih =>
      intro r hr x hx
      rw [List.mapM_cons] at hr
      cases hy : f y with
      | none => rw [hy] at hr; simp at hr
      | some v =>
        rw [hy] at hr
        cases hl : l.mapM f with
        | none => rw [hl] at hr; simp at hr
        | some vs =>
          rcases List.mem_cons.1 hx with rfl | hx
          · rw [hy]; simp
          · exact ih vs hl x hx
  unfold enforceSymmetry
  by_cases hlen : names.length ≠ parities.length
  · exact ⟨_, if_pos hlen⟩
  · rw [if_neg hlen]
    cases h1 : names.mapM parseVariable with
    | none => exact ⟨_, rfl⟩
    | some vs =>
      cases h2 : parities.mapM parseParity with
      | none => exact ⟨_, rfl⟩
      | some ps =>
        exfalso
        rcases h with h | ⟨x, hx, he⟩ | ⟨x, hx, he⟩
        · exact hlen h
        · exact aux _ _ _ h1 x hx he
        · exact aux _ _ _ h2 x hx he

example : ∃ m, enforceSymmetry ⟨1, [2], 1⟩ ["spin"] ["even"] (fun _ _ _ _ => 0) = .error m :=
  C44_refuses _ _ _ _ (Or.inr (Or.inl ⟨"spin", by simp, by rfl⟩))

example : ([Variable.frequency, .momentum].zip [Parity.odd, .even]).Perm
    ([Variable.momentum, .frequency].zip [Parity.even, .odd]) := List.Perm.swap _ _ _

end Verif.Symmetries
