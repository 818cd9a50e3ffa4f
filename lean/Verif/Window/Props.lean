import Verif.Window.Model
import Verif.Bse.SpecificProps
import Verif.Bubble.Props
import Verif.FreqConv.Props

/-!
# Frequencies outside the meshes: what has to fit

C120: The bubbles, the changes of notation and the construction from blocks give the values of the documented formula for every
function exactly if all frequencies that occur lie in the mesh on which the function is given; the necessary sizes are stated.
If they do not fit, no rule for the values outside can help: every rule gives a wrong result for some function.
-/

noncomputable section

set_option linter.unusedSectionVars false

namespace Verif.Window

open Verif.Parallel Verif.Fourier Verif.GfMesh Verif.Bubble Verif.Bse Verif.Dyson

/-! ## Reading -/

theorem ev_in {X V : Type*} [Zero V] {W : X → Prop} [DecidablePred W] {rule : (X → V) → X → V} {f : X → V} {x : X}
    (h : W x) : ev W rule f x = f x := if_pos h

/-- equal values on the mesh give equal values everywhere -/
theorem ev_congr {X V : Type*} [Zero V] {W : X → Prop} [DecidablePred W] (rule : (X → V) → X → V) {f g : X → V}
    (h : ∀ x, W x → f x = g x) : ev W rule f = ev W rule g := by
  have e : seen W f = seen W g := by
    funext x
    unfold seen
    by_cases hx : W x
    · rw [if_pos hx, if_pos hx, h x hx]
    · rw [if_neg hx, if_neg hx]
  funext x
  unfold ev
  by_cases hx : W x
  · rw [if_pos hx, if_pos hx, h x hx]
  · rw [if_neg hx, if_neg hx, e]

/-- copying values along `φ` is right for all functions exactly if `φ` stays inside -/
theorem copy_iff {X P V : Type*} [Zero V] [Nontrivial V] (W : X → Prop) [DecidablePred W] (rule : (X → V) → X → V)
    (M : P → Prop) (φ : P → X) :
    (∀ f : X → V, ∀ p, M p → ev W rule f (φ p) = f (φ p)) ↔ ∀ p, M p → W (φ p) := by
  refine ⟨fun h p hp => ?_, fun h f p hp => ev_in (h p hp)⟩
  by_contra hW
  obtain ⟨v, hv⟩ := exists_ne (0 : V)
  classical
  have h1 := h (fun _ => 0) p hp
  have h2 := h (fun x => if x = φ p then v else 0) p hp
  have e : ev W rule (fun x => if x = φ p then v else 0) = ev W rule fun _ => 0 := ev_congr rule fun x hx => by
    rw [if_neg]
    rintro rfl
    exact hW hx
  rw [e, h1, if_pos rfl] at h2
  exact hv h2.symm

theorem fits_ph {N nw nn : ℕ} (hw : 0 < nw) (hn : 0 < nn) :
    (∀ w x, InB nw w → InF nn x → InF N x ∧ InF N (x + w)) ↔ nn + nw ≤ N + 1 := by
  unfold InB InF
  refine ⟨fun h => ?_, fun h w x hw hx => by omega⟩
  have := h (nw - 1) (nn - 1) ⟨by omega, by omega⟩ ⟨by omega, by omega⟩
  omega

theorem fits_pp {N nw nn : ℕ} (hw : 0 < nw) (hn : 0 < nn) :
    (∀ w x, InB nw w → InF nn x → InF N x ∧ InF N (w - x - 1)) ↔ nn + nw ≤ N + 1 := by
  unfold InB InF
  refine ⟨fun h => ?_, fun h w x hw hx => by omega⟩
  have := h (-(nw - 1)) (nn - 1) ⟨by omega, by omega⟩ ⟨by omega, by omega⟩
  omega

/-! ## Changes of notation -/

section Three

variable {o : Type} {F : Type} [Field F]

theorem copy3_iff [Nonempty o] (N nw nn : ℕ) (rule : (ℤ × ℤ × ℤ → FreqConv.T4 o F) → ℤ × ℤ × ℤ → FreqConv.T4 o F)
    (φ : ℤ × ℤ × ℤ → ℤ × ℤ × ℤ) :
    (∀ g2 : FreqConv.G3 o F, ∀ w x y, InCh nw nn (w, x, y) →
      ev3 N rule g2 (φ (w, x, y)).1 (φ (w, x, y)).2.1 (φ (w, x, y)).2.2
        = g2 (φ (w, x, y)).1 (φ (w, x, y)).2.1 (φ (w, x, y)).2.2) ↔
    ∀ w x y, InCh nw nn (w, x, y) → InF3 N (φ (w, x, y)) := by
  have h := copy_iff (V := FreqConv.T4 o F) (InF3 N) rule (InCh nw nn) φ
  constructor
  · intro H w x y hp
    exact h.1 (fun f p hp => H (fun a b c => f (a, b, c)) p.1 p.2.1 p.2.2 hp) (w, x, y) hp
  · intro H g2 w x y hp
    exact h.2 (fun p hp => H p.1 p.2.1 p.2.2 hp) (fun p => g2 p.1 p.2.1 p.2.2) (w, x, y) hp

/-- C120: `from_3nu_PH` is right for every `g2` exactly if the fermionic and bosonic frequencies of the result together fit into
the mesh of `g2`. -/
theorem C120_from_3nu_PH [Nonempty o] (N nw nn : ℕ) (hw : 0 < nw) (hn : 0 < nn)
    (rule : (ℤ × ℤ × ℤ → FreqConv.T4 o F) → ℤ × ℤ × ℤ → FreqConv.T4 o F) :
    (∀ g2 : FreqConv.G3 o F, ∀ w x y, InCh nw nn (w, x, y) →
      FreqConv.from3nuPH (ev3 N rule g2) w x y = g2 x (x + w) (y + w)) ↔ nn + nw ≤ N + 1 := by
  refine (copy3_iff N nw nn rule fun p => (p.2.1, p.2.1 + p.1, p.2.2 + p.1)).trans ?_
  rw [← fits_ph hw hn]
  constructor
  · intro H w x hw hx
    have := H w x x ⟨hw, hx, hx⟩
    exact ⟨this.1, this.2.1⟩
  · intro H w x y hp
    exact ⟨(H w x hp.1 hp.2.1).1, (H w x hp.1 hp.2.1).2, (H w y hp.1 hp.2.2).2⟩

/-- C120: the same for `from_3nu_PH_bar`. -/
theorem C120_from_3nu_PH_bar [Nonempty o] (N nw nn : ℕ) (hw : 0 < nw) (hn : 0 < nn)
    (rule : (ℤ × ℤ × ℤ → FreqConv.T4 o F) → ℤ × ℤ × ℤ → FreqConv.T4 o F) :
    (∀ g2 : FreqConv.G3 o F, ∀ w x y, InCh nw nn (w, x, y) →
      FreqConv.from3nuPHbar (ev3 N rule g2) w x y = g2 x y (y + w)) ↔ nn + nw ≤ N + 1 := by
  refine (copy3_iff N nw nn rule fun p => (p.2.1, p.2.2, p.2.2 + p.1)).trans ?_
  rw [← fits_ph hw hn]
  constructor
  · intro H w x hw hx
    have := H w x x ⟨hw, hx, hx⟩
    exact ⟨this.1, this.2.2⟩
  · intro H w x y hp
    exact ⟨(H w x hp.1 hp.2.1).1, (H w y hp.1 hp.2.2).1, (H w y hp.1 hp.2.2).2⟩

/-- C120: the same for `from_3nu_PP`. -/
theorem C120_from_3nu_PP [Nonempty o] (N nw nn : ℕ) (hw : 0 < nw) (hn : 0 < nn)
    (rule : (ℤ × ℤ × ℤ → FreqConv.T4 o F) → ℤ × ℤ × ℤ → FreqConv.T4 o F) :
    (∀ g2 : FreqConv.G3 o F, ∀ w x y, InCh nw nn (w, x, y) →
      FreqConv.from3nuPP (ev3 N rule g2) w x y = g2 x y (w - y - 1)) ↔ nn + nw ≤ N + 1 := by
  refine (copy3_iff N nw nn rule fun p => (p.2.1, p.2.2, p.1 - p.2.2 - 1)).trans ?_
  rw [← fits_pp hw hn]
  constructor
  · intro H w x hw hx
    have := H w x x ⟨hw, hx, hx⟩
    exact ⟨this.1, this.2.2⟩
  · intro H w x y hp
    exact ⟨(H w x hp.1 hp.2.1).1, (H w y hp.1 hp.2.2).1, (H w y hp.1 hp.2.2).2⟩

/-- one function with the value `1`, changed to `2` at one frequency -/
def bump (x0 x : ℤ) : F := if x = x0 then 2 else 1

theorem bump_prod [CharZero F] (x0 x : ℤ) : bump x0 x * bump x0 x0 ≠ (1 : F) := by
  unfold bump
  rw [if_pos rfl]
  split_ifs <;> norm_num

theorem ev1_in {N : ℕ} {rule : (ℤ → F) → ℤ → F} {g : FreqConv.G1 o F} {x : ℤ} (h : InF N x) : ev1 N rule g x = g x := by
  funext a b
  exact ev_in h

theorem ev1_bump {N : ℕ} (rule : (ℤ → F) → ℤ → F) {x0 : ℤ} (h : ¬InF N x0) :
    ev1 N rule (fun x (_ _ : o) => bump x0 x) = ev1 N rule fun _ _ _ => 1 := by
  funext x a b
  refine congrFun (ev_congr rule fun y hy => ?_) x
  simp only [bump]
  rw [if_neg]
  rintro rfl
  exact h hy

/-- C120: `chi0_from_gg2_PH` is right for every `g` exactly if the frequencies of `g2` fit into the mesh of `g`. -/
theorem C120_chi0_PH [Nonempty o] [CharZero F] (N nw nn : ℕ) (hw : 0 < nw) (hn : 0 < nn) (rule : (ℤ → F) → ℤ → F) (beta : F)
    (hb : beta ≠ 0) :
    (∀ g : FreqConv.G1 o F, ∀ w x y, InCh nw nn (w, x, y) → ∀ a b c d, chi0PH N rule beta g w x y a b c d
      = if x = y then -beta * g x d a * g (x + w) b c else 0) ↔ nn + nw ≤ N + 1 := by
  rw [← fits_ph hw hn]
  constructor
  · intro H w x hiw hix
    obtain ⟨a⟩ := ‹Nonempty o›
    by_contra hno
    obtain ⟨x0, hx0, hne⟩ : ∃ x0, ¬InF N x0 ∧ bump x0 x * bump x0 (x + w) ≠ (1 : F) := by
      by_cases h1 : InF N x
      · exact ⟨x + w, fun h => hno ⟨h1, h⟩, bump_prod _ _⟩
      · exact ⟨x, h1, by rw [mul_comm]; exact bump_prod _ _⟩
    have h1 := H (fun _ _ _ => 1) w x x ⟨hiw, hix, hix⟩ a a a a
    have h2 := H (fun y _ _ => bump x0 y) w x x ⟨hiw, hix, hix⟩ a a a a
    unfold chi0PH at h1 h2
    rw [ev1_bump rule hx0, h1, if_pos rfl, if_pos rfl] at h2
    apply hne
    have h3 : -beta * (bump x0 x * bump x0 (x + w)) = -beta * 1 := by rw [← mul_assoc, ← h2]; ring
    exact mul_left_cancel₀ (neg_ne_zero.2 hb) h3
  · intro H g w x y hp a b c d
    rw [chi0PH, FreqConv.chi0PH, ev1_in (H w x hp.1 hp.2.1).1, add_comm w x, ev1_in (H w x hp.1 hp.2.1).2, FreqConv.kr]
    split_ifs <;> ring

/-- C120: the same for `chi0_from_gg2_PP`. -/
theorem C120_chi0_PP [Nonempty o] [CharZero F] (N nw nn : ℕ) (hw : 0 < nw) (hn : 0 < nn) (rule : (ℤ → F) → ℤ → F) (beta : F)
    (hb : beta ≠ 0) :
    (∀ g : FreqConv.G1 o F, ∀ w x y, InCh nw nn (w, x, y) → ∀ a b c d, chi0PP N rule beta g w x y a b c d
      = if x = y then -beta * g x d a * g (w - x - 1) b c else 0) ↔ nn + nw ≤ N + 1 := by
  rw [← fits_pp hw hn]
  constructor
  · intro H w x hiw hix
    obtain ⟨a⟩ := ‹Nonempty o›
    by_contra hno
    obtain ⟨x0, hx0, hne⟩ : ∃ x0, ¬InF N x0 ∧ bump x0 x * bump x0 (w - x - 1) ≠ (1 : F) := by
      by_cases h1 : InF N x
      · exact ⟨w - x - 1, fun h => hno ⟨h1, h⟩, bump_prod _ _⟩
      · exact ⟨x, h1, by rw [mul_comm]; exact bump_prod _ _⟩
    have h1 := H (fun _ _ _ => 1) w x x ⟨hiw, hix, hix⟩ a a a a
    have h2 := H (fun y _ _ => bump x0 y) w x x ⟨hiw, hix, hix⟩ a a a a
    unfold chi0PP at h1 h2
    rw [ev1_bump rule hx0, h1, if_pos rfl, if_pos rfl] at h2
    apply hne
    have h3 : -beta * (bump x0 x * bump x0 (w - x - 1)) = -beta * 1 := by rw [← mul_assoc, ← h2]; ring
    exact mul_left_cancel₀ (neg_ne_zero.2 hb) h3
  · intro H g w x y hp a b c d
    rw [chi0PP, FreqConv.chi0PP, ev1_in (H w x hp.1 hp.2.1).1, ev1_in (H w x hp.1 hp.2.1).2, FreqConv.kr]
    split_ifs <;> ring

/-- C120, a violation: the components of `block_3nu_AABB_to_tensor_valued` obtained by exchange lack values at some points of
every mesh: for every mesh there are blocks for which the antisymmetry of the documentation
`G_{abba}(ν1, ν2, ν3) = -G_{aabb}(ν1, ν1 - ν2 + ν3, ν3)` fails at a point of the mesh. -/
theorem C120_block_violated [DecidableEq o] (a c : o) (hac : a ≠ c) (N : ℕ) (hN : 0 < N)
    (pts : List ((ℤ × ℤ × ℤ) × (o × o × o × o))) (hn : pts.Nodup) (hpts : ∀ p, p ∈ pts ↔ InF3 N p.1) :
    ∃ (bg : o → o → ℤ → ℤ → ℤ → F) (x : ℤ × ℤ × ℤ), InF3 N x ∧
      FreqConv.blockAABBtoTensor pts pts bg (x, (a, c, c, a)) ≠ -bg a c x.1 (x.1 - x.2.1 + x.2.2) x.2.2 := by
  have hx : InF3 N ((N : ℤ) - 1, -(N : ℤ), (N : ℤ) - 1) := by
    unfold InF3 InF
    dsimp only
    omega
  refine ⟨fun _ _ _ _ _ => 1, ((N : ℤ) - 1, -(N : ℤ), (N : ℤ) - 1), hx, ?_⟩
  have hm : (((N : ℤ) - 1, -(N : ℤ), (N : ℤ) - 1), (a, c, c, a)) ∈ pts := (hpts _).2 hx
  rw [FreqConv.C30_block_to_tensor pts pts hn _ _ _ _ _ _ _ _ hm hm, if_neg (fun h => hac h.1), if_pos ⟨rfl, rfl⟩, if_neg]
  · simp
  · rw [hpts]
    unfold InF3 InF
    simp only
    omega

end Three

/-! ## Lattice functions -/

section Lattice

variable {d : ℕ} {n : Fin d → ℕ} [∀ i, NeZero (n i)] {o : Type} [Fintype o] [DecidableEq o]

omit [Fintype o] [DecidableEq o] in
theorem gWr_eq (N : ℕ) (rule : (ℤ → ℂ) → ℤ → ℂ) (ranks : ℕ) (hr : 0 < ranks) (lat : List (Lat n)) (beta : ℝ) (g : G n o) :
    (lattice N rule ranks lat beta g).gWr = fun x => if InF N x then kToR (g x) else 0 := by
  funext x
  have e : (lattice N rule ranks lat beta g).gWr
      = distributedAssign ranks (FMesh.mk beta .fermion N).indices fun w => kToR (g w) := rfl
  rw [e, C02_distributedAssign _ hr _ (indices_nodup _)]
  by_cases h : InF N x
  · rw [if_pos h, if_pos ((mem_indices_fermion beta N x).2 h)]
  · rw [if_neg h, if_neg fun h' => h ((mem_indices_fermion beta N x).1 h')]

theorem point_iff [Nonempty o] (N : ℕ) (rule : (ℤ → ℂ) → ℤ → ℂ) (ranks : ℕ) (hr : 0 < ranks) (lat : List (Lat n))
    (beta : ℝ) (hb : beta ≠ 0) (w x : ℤ) :
    (∀ g : G n o, ∀ q a b c d, rToK (fun r => chi0rPoint (beta : ℂ) (lattice N rule ranks lat beta g).gExt r w x) q a b c d
      = -(beta / Fintype.card (Lat n)) * ∑ k, g x k d a * g (x + w) (k - q) b c) ↔ InF N x ∧ InF N (x + w) := by
  have key : ∀ g : G n o, InF N x → InF N (x + w) → ∀ q a b c d,
      rToK (fun r => chi0rPoint (beta : ℂ) (lattice N rule ranks lat beta g).gExt r w x) q a b c d
      = -(beta / Fintype.card (Lat n)) * ∑ k, g x k d a * g (x + w) (k - q) b c := by
    intro g h1 h2 q a b c d
    have hE : ∀ y, InF N y → (lattice N rule ranks lat beta g).gExt y = kToR (g y) := by
      intro y hy
      funext r a b
      refine (ev_in hy).trans ?_
      rw [gWr_eq N rule ranks hr]
      dsimp only
      rw [if_pos hy]
    have e := congrFun (congrFun (congrFun (congrFun (C07_real_space_bubble 1 1 1 Nat.one_pos Nat.one_pos Nat.one_pos (beta : ℂ)
      (FMesh.mk beta .fermion N).indices (indices_nodup _) Finset.univ.toList (Finset.nodup_toList _) (by simp) [(w, x)]
      (by simp) g w x (by simp) ((mem_indices_fermion beta N x).2 h1) ((mem_indices_fermion beta N _).2 h2) q) a) b) c) d
    have hl : chi0qFromChi0r 1 [(w, x)] (chi0rFromGr 1 (beta : ℂ) Finset.univ.toList
        (fourierWkToWr 1 (FMesh.mk beta .fermion N).indices g)) (w, x) q
        = rToK (fun r => chi0rPoint (beta : ℂ) (lattice N rule ranks lat beta g).gExt r w x) q := by
      rw [chi0qFromChi0r, C02_distributedAssign 1 Nat.one_pos _ (by simp), if_pos (by simp)]
      congr 1
      funext r
      rw [chi0rFromGr, C02_distributedAssign 1 Nat.one_pos _ (Finset.nodup_toList _), if_pos (by simp)]
      funext a b c d
      simp only [chi0rPoint]
      rw [hE x h1, hE (x + w) h2, fourierWkToWr, C02_distributedAssign 1 Nat.one_pos _ (indices_nodup _),
        C02_distributedAssign 1 Nat.one_pos _ (indices_nodup _), if_pos ((mem_indices_fermion beta N x).2 h1),
        if_pos ((mem_indices_fermion beta N _).2 h2)]
    rw [← hl, e, Bubble.chi0nFromGwk, Finset.sum_neg_distrib]
    ring
  refine ⟨fun H => ?_, fun h g => key g h.1 h.2⟩
  by_contra hno
  obtain ⟨x0, hx0, hne⟩ : ∃ x0, ¬InF N x0 ∧ bump x0 x * bump x0 (x + w) ≠ (1 : ℂ) := by
    by_cases h1 : InF N x
    · exact ⟨x + w, fun h => hno ⟨h1, h⟩, bump_prod _ _⟩
    · exact ⟨x, h1, by rw [mul_comm]; exact bump_prod _ _⟩
  obtain ⟨a⟩ := ‹Nonempty o›
  have h1 := H (fun _ _ _ _ => 1) 0 a a a a
  have h2 := H (fun y _ _ _ => bump x0 y) 0 a a a a
  have e : (lattice N rule ranks lat beta fun y _ (_ _ : o) => bump x0 y).gExt
      = (lattice (n := n) N rule ranks lat beta fun _ _ (_ _ : o) => 1).gExt := by
    have : (lattice (n := n) N rule ranks lat beta fun y _ (_ _ : o) => bump x0 y).gWr
        = (lattice (n := n) N rule ranks lat beta fun _ _ (_ _ : o) => 1).gWr := by
      rw [gWr_eq N rule ranks hr, gWr_eq N rule ranks hr]
      funext y
      by_cases hy : InF N y
      · rw [if_pos hy, if_pos hy]
        congr 1
        funext k a b
        unfold bump
        rw [if_neg]
        rintro rfl
        exact hx0 hy
      · rw [if_neg hy, if_neg hy]
    unfold Lattice.gExt
    rw [this]
    rfl
  rw [e, h1] at h2
  simp only [Finset.sum_const, Finset.card_univ, nsmul_eq_mul] at h2
  have hc : (Fintype.card (Lat n) : ℂ) ≠ 0 := by
    exact_mod_cast Fintype.card_ne_zero
  have hb' : (beta : ℂ) ≠ 0 := by exact_mod_cast hb
  apply hne
  have h3 : -(beta : ℂ) * (bump x0 x * bump x0 (x + w)) = -(beta : ℂ) * 1 := by
    field_simp at h2
    linear_combination -beta * h2
  exact mul_left_cancel₀ (neg_ne_zero.2 hb') h3

/-- C120: `get_chi0_wnk(g_wk, nw, nwf)` is right for every Green's function exactly if `nwf + nw - 1` frequencies fit into its
mesh; if they do not, every rule for the values outside gives a wrong bubble for some Green's function. -/
theorem C120_get_chi0_wnk [Nonempty o] (N nw nwf : ℕ) (hw : 0 < nw) (hn : 0 < nwf) (rule : (ℤ → ℂ) → ℤ → ℂ) (ranks : ℕ)
    (hr : 0 < ranks) (lat : List (Lat n)) (hl : lat.Nodup) (hall : ∀ r, r ∈ lat) (beta : ℝ) (hb : beta ≠ 0) :
    (∀ g : G n o, ∀ w x, InB nw w → InF nwf x → ∀ q a b c d,
      getChi0Wnk (lattice N rule ranks lat beta g) nw (some nwf) (w, x) q a b c d
        = -(beta / Fintype.card (Lat n)) * ∑ k, g x k d a * g (x + w) (k - q) b c) ↔ nwf + nw ≤ N + 1 := by
  rw [← fits_ph hw hn]
  have hv : ∀ g : G n o, ∀ w x, InB nw w → InF nwf x → ∀ q, getChi0Wnk (lattice N rule ranks lat beta g) nw (some nwf) (w, x) q
      = rToK (fun r => chi0rPoint (beta : ℂ) (lattice N rule ranks lat beta g).gExt r w x) q := fun g w x h1 h2 q =>
    chi0Wnk_eq (lattice N rule ranks lat beta g) ⟨hr, hl, hall, hb⟩ nw nwf w x
      ((mem_indices_boson _ _ _).2 h1) ((mem_indices_fermion _ _ _).2 h2) q
  constructor
  · intro H w x h1 h2
    refine (point_iff (n := n) (o := o) N rule ranks hr lat beta hb w x).1 fun g q a b c d => ?_
    rw [← H g w x h1 h2, hv g w x h1 h2]
  · intro H g w x h1 h2 q a b c d
    rw [hv g w x h1 h2]
    exact (point_iff N rule ranks hr lat beta hb w x).2 (H w x h1 h2) g q a b c d

/-- C120, a violation: without `nwf` the function takes all frequencies of the Green's function, which leaves no room for any
bosonic frequency but zero. -/
theorem C120_default_violated [Nonempty o] (N nw : ℕ) (hN : 0 < N) (hw : 0 < nw) (rule : (ℤ → ℂ) → ℤ → ℂ) (ranks : ℕ)
    (hr : 0 < ranks) (lat : List (Lat n)) (hl : lat.Nodup) (hall : ∀ r, r ∈ lat) (beta : ℝ) (hb : beta ≠ 0) :
    (∀ g : G n o, ∀ w x, InB nw w → InF N x → ∀ q a b c d,
      getChi0Wnk (lattice N rule ranks lat beta g) nw none (w, x) q a b c d
        = -(beta / Fintype.card (Lat n)) * ∑ k, g x k d a * g (x + w) (k - q) b c) ↔ nw = 1 := by
  have e : ∀ g : G n o, getChi0Wnk (lattice N rule ranks lat beta g) nw none
      = getChi0Wnk (lattice N rule ranks lat beta g) nw (some N) := by
    intro g
    simp only [getChi0Wnk, lattice, FMesh.indices, FMesh.len, List.length_map, List.length_range, Option.getD_none,
      Option.getD_some]
    rw [Nat.mul_div_cancel_left _ Nat.two_pos]
  simp only [e]
  refine (C120_get_chi0_wnk N nw N hw hN rule ranks hr lat hl hall beta hb).trans ?_
  omega

/-- C120: `get_chi0_nk_at_specific_w(g_wk, nw_index, nwf)` does not raise, and is right for every Green's function exactly if
`nwf + |nw_index|` frequencies fit. -/
theorem C120_specific [Nonempty o] (N nwf : ℕ) (hn : 0 < nwf) (w : ℤ) (rule : (ℤ → ℂ) → ℤ → ℂ) (ranks : ℕ)
    (hr : 0 < ranks) (lat : List (Lat n)) (hl : lat.Nodup) (hall : ∀ r, r ∈ lat) (beta : ℝ) (hb : beta ≠ 0) :
    (∀ g : G n o, ∃ chi, getChi0NkAt (lattice N rule ranks lat beta g) w (some nwf) = .ok chi ∧ ∀ x, InF nwf x → ∀ q a b c d,
      chi x q a b c d = -(beta / Fintype.card (Lat n)) * ∑ k, g x k d a * g (x + w) (k - q) b c) ↔ nwf + w.natAbs ≤ N := by
  have fit : (∀ x, InF nwf x → InF N x ∧ InF N (x + w)) ↔ nwf + w.natAbs ≤ N := by
    unfold InF
    constructor
    · intro H
      have h1 := H (nwf - 1) ⟨by omega, by omega⟩
      have h2 := H (-nwf) ⟨by omega, by omega⟩
      omega
    · intro H x hx
      omega
  rw [← fit]
  constructor
  · intro H x hx
    refine (point_iff (n := n) (o := o) N rule ranks hr lat beta hb w x).1 fun g q a b c d => ?_
    obtain ⟨chi, e, h⟩ := H g
    obtain ⟨chi', e', h'⟩ := chi0NkAt_eq (lattice N rule ranks lat beta g) ⟨hr, hl, hall, hb⟩ nwf w
    have : chi = chi' := Except.ok.inj (e.symm.trans e')
    rw [← h x hx, this, h' x ((mem_indices_fermion _ _ _).2 hx)]
    rfl
  · intro H g
    obtain ⟨chi', e', h'⟩ := chi0NkAt_eq (lattice N rule ranks lat beta g) ⟨hr, hl, hall, hb⟩ nwf w
    refine ⟨chi', e', fun x hx q a b c d => ?_⟩
    rw [h' x ((mem_indices_fermion _ _ _).2 hx)]
    exact (point_iff N rule ranks hr lat beta hb w x).2 (H x hx) g q a b c d

/-- C120, a violation: with its default arguments (`nw_index = 1`, all fermionic frequencies)
`get_chi0_nk_at_specific_w` is wrong for some Green's function on every mesh and for every rule. -/
theorem C120_specific_default_violated [Nonempty o] (N : ℕ) (hN : 0 < N) (rule : (ℤ → ℂ) → ℤ → ℂ) (ranks : ℕ)
    (hr : 0 < ranks) (lat : List (Lat n)) (hl : lat.Nodup) (hall : ∀ r, r ∈ lat) (beta : ℝ) (hb : beta ≠ 0) :
    ¬∀ g : G n o, ∃ chi, getChi0NkAt (lattice N rule ranks lat beta g) 1 none = .ok chi ∧ ∀ x, InF N x → ∀ q a b c d,
      chi x q a b c d = -(beta / Fintype.card (Lat n)) * ∑ k, g x k d a * g (x + 1) (k - q) b c := by
  have e : ∀ g : G n o, getChi0NkAt (lattice N rule ranks lat beta g) 1 none
      = getChi0NkAt (lattice N rule ranks lat beta g) 1 (some N) := by
    intro g
    simp only [getChi0NkAt, lattice, FMesh.indices, FMesh.len, List.length_map, List.length_range, Option.getD_none,
      Option.getD_some]
    rw [Nat.mul_div_cancel_left _ Nat.two_pos]
  simp only [e]
  intro H
  have := (C120_specific N N hN 1 rule ranks hr lat hl hall beta hb).1 H
  simp at this

/-- C120, a violation: the assertions of `solve_lattice_dbse` let pass sizes for which the bubble inside is wrong for some
Green's function; they are sufficient only for vertices with the zero bosonic frequency alone. -/
theorem C120_dbse_violated (nw lw cw : ℕ) (hw : 0 < nw) (h1 : nw ≤ lw) (h2 : nw ≤ cw) :
    (∀ nn N ln, dbseAccepts nw nn N lw ln cw = true → nn + nw ≤ N + 1) ↔ nw = 1 := by
  constructor
  · intro H
    have := H 1 1 1 (by simp [dbseAccepts]; omega)
    omega
  · rintro rfl nn N ln h
    simp only [dbseAccepts, Bool.and_eq_true, decide_eq_true_eq] at h
    omega

/-- C120: `chi0_n_from_g_wk_PH` reads inside the memory exactly if the fermionic frequencies fit; it is right for every Green's
function exactly if also the sums of frequencies fit. -/
theorem C120_g_wk [Nonempty o] (N nw nn : ℕ) (hw : 0 < nw) (hn : 0 < nn) (rule : (ℤ → ℂ) → ℤ → ℂ) (beta : ℂ) (hb : beta ≠ 0) :
    ((∀ (g : G n o) w x, InB nw w → InF nn x → ∀ q, (chi0nFromGwk N rule beta g w q x).isSome) ↔ nn ≤ N) ∧
    ((∀ (g : G n o) w x, InB nw w → InF nn x → ∀ q, ∃ chi, chi0nFromGwk N rule beta g w q x = some chi ∧ ∀ a b c d,
      chi a b c d = -(beta / Fintype.card (Lat n)) * ∑ k, g x k d a * g (x + w) (k - q) b c) ↔ nn + nw ≤ N + 1) := by
  have hv : ∀ (g : G n o) w x q, InF N x → chi0nFromGwk N rule beta g w q x = some fun a b c d =>
      (∑ k, -(g x k d a * ev (InF N) rule (fun y => g y (k - q) b c) (x + w))) * (beta / Fintype.card (Lat n)) := by
    intro g w x q h
    rw [chi0nFromGwk, cell, if_pos h]
    rfl
  have hnone : ∀ (g : G n o) w x q, ¬InF N x → chi0nFromGwk N rule beta g w q x = none := by
    intro g w x q h
    rw [chi0nFromGwk, cell, if_neg h]
    rfl
  constructor
  · constructor
    · intro H
      by_contra hlt
      have := H (fun _ _ _ _ => 0) 0 (nn - 1) ⟨by omega, by omega⟩ ⟨by omega, by omega⟩ 0
      rw [hnone _ _ _ _ (by unfold InF; omega)] at this
      simp at this
    · intro H g w x h1 h2 q
      rw [hv g w x q (by unfold InF at *; omega)]
      rfl
  · rw [← fits_ph hw hn]
    constructor
    · intro H w x h1 h2
      have hx : InF N x := by
        by_contra hx
        obtain ⟨chi, e, _⟩ := H (fun _ _ _ _ => 0) w x h1 h2 0
        rw [hnone _ _ _ _ hx] at e
        cases e
      refine ⟨hx, ?_⟩
      by_contra hno
      obtain ⟨a⟩ := ‹Nonempty o›
      obtain ⟨c1, e1, v1⟩ := H (fun _ _ _ _ => 1) w x h1 h2 0
      obtain ⟨c2, e2, v2⟩ := H (fun y _ _ _ => bump (x + w) y) w x h1 h2 0
      rw [hv _ w x 0 hx] at e1 e2
      have hev : ev (InF N) rule (fun y => bump (x + w) y) = ev (InF N) rule fun _ => 1 := ev_congr rule fun y hy => by
        unfold bump
        rw [if_neg]
        rintro rfl
        exact hno hy
      have hbx : bump (x + w) x = (1 : ℂ) := by
        unfold bump
        rw [if_neg]
        intro h
        rw [← h] at hno
        exact hno hx
      have e3 : c1 a a a a = c2 a a a a := by
        rw [← Option.some.inj e1, ← Option.some.inj e2]
        simp only [hev, hbx]
      rw [v1, v2, hbx] at e3
      have hc : (Fintype.card (Lat n) : ℂ) ≠ 0 := by
        exact_mod_cast Fintype.card_ne_zero
      simp only [Finset.sum_const, Finset.card_univ, nsmul_eq_mul, bump, if_true] at e3
      field_simp at e3
      norm_num at e3
    · intro H g w x h1 h2 q
      obtain ⟨hx, hxw⟩ := H w x h1 h2
      refine ⟨_, hv g w x q hx, fun a b c d => ?_⟩
      simp only [ev_in hxw]
      rw [Finset.sum_neg_distrib]
      ring

/-- C120: `chi0_n_from_e_k_sigma_w_PH` reads inside the memory of the self energy exactly if the sums of frequencies fit. -/
theorem C120_sigma (N nw nn : ℕ) (hw : 0 < nw) (hn : 0 < nn) (beta mu : ℂ) (iv : ℤ → ℂ) (e : Lat n → Matrix o o ℂ)
    (sigma : ℤ → Matrix o o ℂ) :
    (∀ w x, InB nw w → InF nn x → ∀ q, chi0nFromEkSigma N beta mu iv e sigma w q x
      = some (Bubble.chi0nFromEkSigma beta mu iv e sigma w q x)) ↔ nn + nw ≤ N + 1 := by
  rw [← fits_ph hw hn]
  constructor
  · intro H w x h1 h2
    have := H w x h1 h2 0
    unfold chi0nFromEkSigma cell at this
    by_cases hx : InF N x <;> by_cases hxw : InF N (x + w) <;> simp [hx, hxw] at this ⊢
  · intro H w x h1 h2 q
    obtain ⟨hx, hxw⟩ := H w x h1 h2
    unfold chi0nFromEkSigma cell
    rw [if_pos hx, if_pos hxw]
    rfl

/-- C120, a violation: the assertion of `chi0_n_from_e_k_sigma_w_PH` does not prevent reads outside the memory: it is sufficient
only for vertices with at most two bosonic frequencies. -/
theorem C120_assertion_violated (nw : ℕ) :
    (∀ nn N, sigmaAccepts nn N = true → nn + nw ≤ N + 1) ↔ nw ≤ 2 := by
  constructor
  · intro H
    have := H 1 2 (by simp [sigmaAccepts])
    omega
  · intro h nn N ha
    simp only [sigmaAccepts, decide_eq_true_eq] at ha
    omega

/-- Examples: sixteen frequencies of the Green's function are enough for twelve fermionic and three bosonic ones, and for the
default arguments with the zero bosonic frequency; a Green's function with two orbitals on two sites. -/
example (rule : (ℤ → ℂ) → ℤ → ℂ) : (∀ g : G (fun _ : Fin 1 => 2) (Fin 2), ∀ w x, InB 2 w → InF 6 x → ∀ q a b c d,
      getChi0Wnk (lattice 8 rule 3 Finset.univ.toList 10 g) 2 (some 6) (w, x) q a b c d
        = -((10 : ℝ) / Fintype.card (Lat (fun _ : Fin 1 => 2))) * ∑ k, g x k d a * g (x + w) (k - q) b c) :=
  (C120_get_chi0_wnk 8 2 6 (by norm_num) (by norm_num) rule 3 (by norm_num) _ (Finset.nodup_toList _) (by simp) 10
    (by norm_num)).2 (by norm_num)

/-- Taking zero outside, the bubble of a level at zero energy vanishes at the last fermionic frequency instead of being
`-β / (iν i(ν + ω))`. -/
example : chi0PH (o := Unit) 1 (fun _ _ => 0) (1 : ℂ) (fun x _ _ => (matsubara .fermion 1 x)⁻¹) 1 0 0 () () () () = 0 ∧
    FreqConv.chi0PH (o := Unit) (1 : ℂ) (fun x _ _ => (matsubara .fermion 1 x)⁻¹) 1 0 0 () () () () ≠ 0 := by
  have hne : ∀ x : ℤ, matsubara .fermion 1 x ≠ 0 := by
    intro x h
    have h2 := congrArg Complex.im h
    simp [matsubara, Real.pi_ne_zero] at h2
    have h3 : ((2 * x + 1 : ℤ) : ℝ) = 0 := by push_cast; exact h2
    have h4 := Int.cast_eq_zero.1 h3
    omega
  constructor
  · simp [chi0PH, FreqConv.chi0PH, ev1, ev, InF]
  · simp [FreqConv.chi0PH, FreqConv.kr, hne]

end Lattice

end Verif.Window
