import Verif.Subsystem.Hf
import Verif.Gw.SolverProps

/-!
# C127: uncoupled subsystems in the GW solver
-/

set_option linter.unusedSectionVars false

noncomputable section

namespace Verif.Subsystem

open Verif.Parallel Verif.Fourier Verif.Bubble Verif.Gw Verif.Rpa Verif.Dyson

variable {d : ℕ} {n : Fin d → ℕ} [∀ i, NeZero (n i)] {o : Type} [Fintype o] [DecidableEq o] {s : Type} [Fintype s] [DecidableEq s]
  {ι : s → o}

/-! ## Lattice transforms -/

theorem kToR_part2 (f : Lat n → o → o → ℂ) (r : Lat n) : kToR (fun k => part2 ι (f k)) r = part2 ι (kToR f r) := by
  funext a b
  simp only [kToR, fftw, part2, Pi.smul_apply, Finset.sum_apply]

theorem rToK_part2 (f : Lat n → o → o → ℂ) (k : Lat n) : rToK (fun r => part2 ι (f r)) k = part2 ι (rToK f k) := by
  funext a b
  simp only [rToK, fftw, part2, Pi.smul_apply, Finset.sum_apply]

theorem kToR_cut (f : Lat n → Bubble.T4 o) (r : Lat n) : kToR (fun k => cut ι (f k)) r = cut ι (kToR f r) := by
  funext a b c e
  simp only [kToR, fftw, cut, Pi.smul_apply, Finset.sum_apply]

theorem rToK_cut (f : Lat n → Bubble.T4 o) (k : Lat n) : rToK (fun r => cut ι (f r)) k = cut ι (rToK f k) := by
  funext a b c e
  simp only [rToK, fftw, cut, Pi.smul_apply, Finset.sum_apply]

theorem kToR_zero_at {A : Type*} {Q : A → Prop} (f : Lat n → A → ℂ) (h : ∀ k a, Q a ∨ f k a = 0) (r : Lat n) (a : A) :
    Q a ∨ kToR f r a = 0 := by
  by_cases hq : Q a
  · exact .inl hq
  · refine .inr ?_
    simp only [kToR, fftw, Pi.smul_apply, Finset.sum_apply, (h _ a).resolve_left hq, smul_zero, Finset.sum_const_zero]

theorem kToR_apart {S : Set o} {f : Lat n → o → o → ℂ} (h : ∀ k, Apart S (Matrix.of (f k))) (r : Lat n) :
    Apart S (Matrix.of (kToR f r)) := fun a b => by
  by_cases hq : a ∈ S ↔ b ∈ S
  · exact .inl hq
  · refine .inr ?_
    have : ∀ k, f k a b = 0 := fun k => (h k a b).resolve_left hq
    change kToR f r a b = 0
    simp only [kToR, fftw, Pi.smul_apply, Finset.sum_apply, this, smul_zero, Finset.sum_const_zero]

theorem rToK_apart {S : Set o} {f : Lat n → o → o → ℂ} (h : ∀ r, Apart S (Matrix.of (f r))) (k : Lat n) :
    Apart S (Matrix.of (rToK f k)) := fun a b => by
  by_cases hq : a ∈ S ↔ b ∈ S
  · exact .inl hq
  · refine .inr ?_
    have : ∀ k, f k a b = 0 := fun k => (h k a b).resolve_left hq
    change rToK f k a b = 0
    simp only [rToK, fftw, Pi.smul_apply, Finset.sum_apply, this, smul_zero, Finset.sum_const_zero]

theorem kToR_separate {S : Set o} {f : Lat n → Bubble.T4 o} (h : ∀ k, Separate S (f k)) (r : Lat n) :
    Separate S (kToR f r) := fun a b c e => by
  by_cases hq : Side S a b ∧ Side S a c ∧ Side S a e
  · exact .inl hq
  · refine .inr ?_
    have : ∀ k, f k a b c e = 0 := fun k => (h k a b c e).resolve_left hq
    simp only [kToR, fftw, Pi.smul_apply, Finset.sum_apply, this, smul_zero, Finset.sum_const_zero]

theorem rToK_linked {S : Set o} {f : Lat n → Bubble.T4 o} (h : ∀ r, Linked S (f r)) (k : Lat n) :
    Linked S (rToK f k) := fun a b c e => by
  by_cases hq : Side S a e ∧ Side S b c
  · exact .inl hq
  · refine .inr ?_
    have : ∀ k, f k a b c e = 0 := fun k => (h k a b c e).resolve_left hq
    simp only [rToK, fftw, Pi.smul_apply, Finset.sum_apply, this, smul_zero, Finset.sum_const_zero]

/-! ## The pieces of a pass -/

/-- the solver of the subsystem at a given chemical potential -/
structure PartGw (ι : s → o) (p : SolverParams n o) (p' : SolverParams n s) : Prop where
  inj : Function.Injective ι
  ranks : p'.ranks = p.ranks
  lat : p'.lat = p.lat
  freqs : p'.freqs = p.freqs
  bfreqs : p'.bfreqs = p.bfreqs
  nw : p'.nw = p.nw
  L : p'.L = p.L
  beta : p'.beta = p.beta
  val : p'.val = p.val
  pieces : p'.pieces = p.pieces
  boseFreq : p'.boseFreq = p.boseFreq
  e : p'.e = fun k => part ι (p.e k)
  V : p'.V = fun k => cut ι (p.V k)
  nFix : p'.nFix = 0
  apart : ∀ k, Apart (Set.range ι) (p.e k)
  separate : ∀ k, Separate (Set.range ι) (p.V k)
  gToTau : ∀ t, p.pieces.gToTau (fun _ => 0) t = 0
  wToTau : ∀ t, p.pieces.wToTau (fun _ => 0) t = 0
  toFreq : ∀ w, p.pieces.toFreq (fun _ => 0) w = 0
  dens : p.pieces.dens (fun _ => 0) = 0
  bose : ∀ w, p.boseFreq (fun _ => 0) w = 0

/-- restriction of a Green's function -/
def partG (ι : s → o) (g : G n o) : G n s := fun w k => part2 ι (g w k)

variable {p : SolverParams n o} {p' : SolverParams n s} {g : G n o}

theorem rhoK_part (h : PartGw ι p p') (g : G n o) (k : Lat n) : p'.rhoK (partG ι g) k = part2 ι (p.rhoK g k) := by
  unfold SolverParams.rhoK Gw.rhoK
  rw [h.ranks, h.lat, h.pieces]
  exact congrFun (distributedAssign_map (part2Hom ι) p.ranks p.lat (fun k => densityOf p.pieces fun w => g w k)
    (fun k => densityOf p.pieces fun w => partG ι g w k) fun k _ => rfl) k

theorem rhoK_apart (h : PartGw ι p p') (hg : ∀ w k, Apart (Set.range ι) (Matrix.of (g w k))) (k : Lat n) :
    Apart (Set.range ι) (Matrix.of (p.rhoK g k)) := by
  unfold SolverParams.rhoK Gw.rhoK
  refine distributedAssign_ind (fun x : o → o → ℂ => Apart (Set.range ι) (Matrix.of x)) apart_zero (fun _ _ h1 h2 => h1.add h2)
    _ _ _ (fun k _ => ?_) k
  intro a b
  by_cases hq : a ∈ Set.range ι ↔ b ∈ Set.range ι
  · exact .inl hq
  · refine .inr ?_
    have : (fun w => g w k b a) = fun _ => 0 := funext fun w => (hg w k b a).resolve_left fun x => hq x.symm
    change p.pieces.dens (fun w => g w k b a) = 0
    rw [this, h.dens]

theorem rhoR_part (h : PartGw ι p p') (g : G n o) (r : Lat n) : p'.rhoR (partG ι g) r = part2 ι (p.rhoR g r) := by
  unfold SolverParams.rhoR
  rw [← kToR_part2]
  exact congrFun (congrArg kToR (funext fun k => rhoK_part h g k)) r

theorem hartree_part (h : PartGw ι p p') (g : G n o) (k : Lat n) :
    p'.sigmaHartree (partG ι g) k = part2 ι (p.sigmaHartree g k) := by
  unfold SolverParams.sigmaHartree
  rw [← rToK_part2]
  refine congrFun (congrArg rToK (funext fun r => ?_)) k
  unfold hartreeR
  by_cases hr : r = 0
  · subst hr
    rw [Function.update_self, Function.update_self]
    funext a b
    change (∑ c, ∑ e, p'.V 0 a b c e * p'.rhoR (partG ι g) 0 c e) = ∑ c, ∑ e, p.V 0 (ι a) (ι b) c e * p.rhoR g 0 c e
    rw [rhoR_part h, h.V]
    refine Fintype.sum_of_injective ι h.inj _ _ (fun c hn => ?_) fun c => ?_
    · refine Finset.sum_eq_zero fun e _ => ?_
      rw [(h.separate 0 (ι a) (ι b) c e).resolve_left fun x => hn (x.2.1.1 ⟨a, rfl⟩), zero_mul]
    · refine Fintype.sum_of_injective ι h.inj _ _ (fun e hn => ?_) fun e => rfl
      rw [(h.separate 0 (ι a) (ι b) (ι c) e).resolve_left fun x => hn (x.2.2.1 ⟨a, rfl⟩), zero_mul]
  · rw [Function.update_of_ne hr, Function.update_of_ne hr]
    rfl

theorem hartree_apart (h : PartGw ι p p') (g : G n o) (k : Lat n) :
    Apart (Set.range ι) (Matrix.of (p.sigmaHartree g k)) := by
  unfold SolverParams.sigmaHartree
  refine rToK_apart (fun r => ?_) k
  unfold hartreeR
  by_cases hr : r = 0
  · subst hr
    rw [Function.update_self]
    intro a b
    by_cases hq : a ∈ Set.range ι ↔ b ∈ Set.range ι
    · exact .inl hq
    · refine .inr (Finset.sum_eq_zero fun c _ => Finset.sum_eq_zero fun e _ => ?_)
      rw [(h.separate 0 a b c e).resolve_left fun x => hq x.1, zero_mul]
  · rw [Function.update_of_ne hr]
    exact apart_zero

theorem fock_part (h : PartGw ι p p') (g : G n o) (k : Lat n) : p'.sigmaFock (partG ι g) k = part2 ι (p.sigmaFock g k) := by
  unfold SolverParams.sigmaFock
  rw [← rToK_part2]
  refine congrFun (congrArg rToK (funext fun r => ?_)) k
  unfold fockR
  rw [h.ranks, h.lat]
  refine congrFun (distributedAssign_map (part2Hom ι) p.ranks p.lat (fun r a b => ∑ c, ∑ e, -kToR p.V r a c e b * p.rhoR g r e c)
    (fun r a b => ∑ c, ∑ e, -kToR p'.V r a c e b * p'.rhoR (partG ι g) r e c) fun r _ => ?_) r
  funext a b
  change _ = ∑ c, ∑ e, -kToR p.V r (ι a) c e (ι b) * p.rhoR g r e c
  rw [rhoR_part h, h.V, kToR_cut]
  have hs := kToR_separate h.separate r
  refine Fintype.sum_of_injective ι h.inj _ _ (fun c hn => ?_) fun c => ?_
  · refine Finset.sum_eq_zero fun e _ => ?_
    rw [(hs (ι a) c e (ι b)).resolve_left fun x => hn (x.1.1 ⟨a, rfl⟩), neg_zero, zero_mul]
  · refine Fintype.sum_of_injective ι h.inj _ _ (fun e hn => ?_) fun e => rfl
    rw [(hs (ι a) (ι c) e (ι b)).resolve_left fun x => hn (x.2.1.1 ⟨a, rfl⟩), neg_zero, zero_mul]

theorem fock_apart (h : PartGw ι p p') (g : G n o) (k : Lat n) : Apart (Set.range ι) (Matrix.of (p.sigmaFock g k)) := by
  unfold SolverParams.sigmaFock fockR
  refine rToK_apart (fun r => ?_) k
  refine distributedAssign_ind (fun x : o → o → ℂ => Apart (Set.range ι) (Matrix.of x)) apart_zero (fun _ _ h1 h2 => h1.add h2)
    _ _ _ (fun r _ => ?_) r
  intro a b
  by_cases hq : a ∈ Set.range ι ↔ b ∈ Set.range ι
  · exact .inl hq
  · refine .inr (Finset.sum_eq_zero fun c _ => Finset.sum_eq_zero fun e _ => ?_)
    rw [(kToR_separate h.separate r a c e b).resolve_left fun x => hq x.2.2, neg_zero, zero_mul]

theorem gTr_part (h : PartGw ι p p') (g : G n o) (t : ℕ) (r : Lat n) : p'.gTr (partG ι g) t r = part2 ι (p.gTr g t r) := by
  funext a b
  unfold SolverParams.gTr
  rw [h.pieces]
  refine congrArg (fun x => p.pieces.gToTau x t) (funext fun w => ?_)
  exact congrFun (congrFun (kToR_part2 (g w) r) a) b

theorem gTr_apart (h : PartGw ι p p') (hg : ∀ w k, Apart (Set.range ι) (Matrix.of (g w k))) (t : ℕ) (r : Lat n) :
    Apart (Set.range ι) (Matrix.of (p.gTr g t r)) := by
  intro a b
  by_cases hq : a ∈ Set.range ι ↔ b ∈ Set.range ι
  · exact .inl hq
  · refine .inr ?_
    change p.pieces.gToTau (fun w => kToR (g w) r a b) t = 0
    rw [show (fun w => kToR (g w) r a b) = fun _ => 0 from funext fun w => (kToR_apart (hg w) r a b).resolve_left hq, h.gToTau]

theorem chi0tr_linked (ranks L : ℕ) (lat : List (Lat n)) {x : ℕ → Lat n → o → o → ℂ}
    (hx : ∀ t r, Apart (Set.range ι) (Matrix.of (x t r))) (r : Lat n) (t : ℕ) : Linked (Set.range ι) (chi0tr ranks L lat x r t) := by
  refine distributedAssign_ind (fun y : ℕ → Bubble.T4 o => Linked (Set.range ι) (y t)) linked_zero (fun _ _ => Linked.add)
    _ _ _ (fun r _ => ?_) r
  have := linked_gg (hx t r) (hx (L - t) (-r)) 1
  simp only [one_mul] at this
  exact this

theorem chi0_part (h : PartGw ι p p') (hg : ∀ w k, Apart (Set.range ι) (Matrix.of (g w k))) (w : ℤ) (k : Lat n) :
    p'.chi0 (partG ι g) w k = cut ι (p.chi0 g w k) := by
  have hgt : p'.gTr (partG ι g) = fun t r a b => p.gTr g t r (ι a) (ι b) := funext fun t => funext fun r => gTr_part h g t r
  unfold SolverParams.chi0
  rw [h.nw, hgt, h.ranks, h.beta, h.L, h.lat, h.boseFreq]
  by_cases h1 : p.nw = 1
  · rw [if_pos h1, if_pos h1]
    by_cases hw : w = 0
    · rw [if_pos hw, if_pos hw, ← rToK_cut]
      refine congrFun (congrArg rToK (funext fun r => ?_)) k
      exact (C127_bubble (ι := ι) p.ranks p.beta p.lat g p.L (p.gTr g) hg (gTr_apart h hg)).2.2.1 r
    · rw [if_neg hw, if_neg hw]
      rfl
  · rw [if_neg h1, if_neg h1, ← rToK_cut]
    refine congrFun (congrArg rToK (funext fun r => ?_)) k
    funext a b c e
    refine congrArg (fun x => p.boseFreq x w) (funext fun t => ?_)
    have := congrFun (distributedAssign_map (M := ℕ → Bubble.T4 o) (M' := ℕ → Bubble.T4 s)
      { toFun := fun x t => cut ι (x t), map_zero' := rfl, map_add' := fun _ _ => rfl } p.ranks p.lat
      (fun r => chi0tPoint p.L (p.gTr g) r) (fun r => chi0tPoint p.L (fun t r a b => p.gTr g t r (ι a) (ι b)) r) fun _ _ => rfl) r
    exact congrFun (congrFun (congrFun (congrFun (congrFun this t) a) b) c) e

theorem chi0_linked (h : PartGw ι p p') (hg : ∀ w k, Apart (Set.range ι) (Matrix.of (g w k))) (w : ℤ) (k : Lat n) :
    Linked (Set.range ι) (p.chi0 g w k) := by
  unfold SolverParams.chi0
  by_cases h1 : p.nw = 1
  · rw [if_pos h1]
    by_cases hw : w = 0
    · rw [if_pos hw]
      exact rToK_linked (C127_bubble (ι := ι) p.ranks p.beta p.lat g p.L (p.gTr g) hg (gTr_apart h hg)).2.2.2.2.2 k
    · rw [if_neg hw]
      exact linked_zero
  · rw [if_neg h1]
    refine rToK_linked (fun r => ?_) k
    intro a b c e
    by_cases hq : Side (Set.range ι) a e ∧ Side (Set.range ι) b c
    · exact .inl hq
    · refine .inr ?_
      dsimp only
      rw [show (fun t => chi0tr p.ranks p.L p.lat (p.gTr g) r t a b c e) = fun _ => 0 from funext fun t =>
        (chi0tr_linked p.ranks p.L p.lat (gTr_apart h hg) r t a b c e).resolve_left hq, h.bose]

theorem pol_part (h : PartGw ι p p') (hg : ∀ w k, Apart (Set.range ι) (Matrix.of (g w k))) (w : ℤ) (k : Lat n) :
    p'.polarization (partG ι g) w k = cut ι (p.polarization g w k) := by
  unfold SolverParams.polarization
  rw [chi0_part h hg]
  rfl

theorem pol_linked (h : PartGw ι p p') (hg : ∀ w k, Apart (Set.range ι) (Matrix.of (g w k))) (w : ℤ) (k : Lat n) :
    Linked (Set.range ι) (p.polarization g w k) := by
  unfold SolverParams.polarization
  have := (chi0_linked h hg w k).smul (-1 : ℂ)
  rw [neg_one_smul] at this
  exact this

/-- what screens the interaction -/
def screening (f : Bool) (P : Bubble.T4 o) : Bubble.T4 o := if f then (2 : ℂ) • P else P

theorem screening_linked {f : Bool} {P : Bubble.T4 o} (h : Linked (Set.range ι) P) : Linked (Set.range ι) (screening f P) := by
  cases f
  · exact h
  · exact h.smul 2

theorem screened_part (h : PartGw ι p p') (f : Bool) {P : ℤ → Lat n → Bubble.T4 o} (hP : ∀ w k, Linked (Set.range ι) (P w k))
    (hu : ∀ w ∈ p.bfreqs, ∀ k ∈ p.lat, IsUnit (1 - pairMat (screening f (P w k)) * pairMat (p.V k)).det) :
    (∀ x, p'.screened f (fun w k => cut ι (P w k)) x = cut ι (p.screened f P x)) ∧
      ∀ x, Separate (Set.range ι) (p.screened f P x) := by
  have key : ∀ x ∈ prodMesh p.bfreqs p.lat, screenedOptPoint (screening f (cut ι (P x.1 x.2))) (cut ι (p.V x.2))
      = cut ι (screenedOptPoint (screening f (P x.1 x.2)) (p.V x.2)) ∧
      Separate (Set.range ι) (screenedOptPoint (screening f (P x.1 x.2)) (p.V x.2)) := by
    intro x hx
    obtain ⟨h1, h2⟩ := mem_prodMesh hx
    rw [screenedOptPoint_eq, screenedOptPoint_eq]
    have := screenedBubblePoint_part h.inj (screening_linked (f := f) (hP x.1 x.2)) (h.separate x.2) (hu _ h1 _ h2)
    rw [show screening f (cut ι (P x.1 x.2)) = cut ι (screening f (P x.1 x.2)) by cases f <;> rfl]
    exact this
  constructor
  · intro x
    unfold SolverParams.screened
    dsimp only
    rw [h.ranks, h.bfreqs, h.lat, h.V]
    exact congrFun (distributedAssign_map (cutHom ℂ ι) p.ranks (prodMesh p.bfreqs p.lat)
      (fun x => screenedOptPoint (screening f (P x.1 x.2)) (p.V x.2))
      (fun x => screenedOptPoint (screening f (cut ι (P x.1 x.2))) (cut ι (p.V x.2))) fun x hx => (key x hx).1) x
  · exact distributedAssign_ind _ separate_zero (fun _ _ => Separate.add) _ _ _ fun x hx => (key x hx).2

theorem wDyn_part (h : PartGw ι p p') (W : ℤ × Lat n → Bubble.T4 o) (x : ℤ × Lat n) :
    p'.wDyn (fun x => cut ι (W x)) x = cut ι (p.wDyn W x) := by
  unfold SolverParams.wDyn
  rw [h.bfreqs, h.V]
  generalize p.bfreqs = fs
  induction fs generalizing W with
  | nil => rfl
  | cons w fs ih =>
    rw [List.foldl_cons, List.foldl_cons, ← ih]
    have hz : (fun x : ℤ × Lat n => if x.1 = w then (fun x => cut ι (W x)) x - (fun k => cut ι (p.V k)) x.2
        else (fun x => cut ι (W x)) x) = fun x => cut ι (if x.1 = w then W x - p.V x.2 else W x) := by
      funext y
      by_cases hy : y.1 = w
      · rw [if_pos hy, if_pos hy]
        rfl
      · rw [if_neg hy, if_neg hy]
    rw [hz]

theorem wDyn_separate (h : PartGw ι p p') {W : ℤ × Lat n → Bubble.T4 o} (hW : ∀ x, Separate (Set.range ι) (W x)) (x : ℤ × Lat n) :
    Separate (Set.range ι) (p.wDyn W x) := by
  unfold SolverParams.wDyn
  generalize p.bfreqs = fs
  induction fs generalizing W with
  | nil => exact hW x
  | cons w fs ih =>
    rw [List.foldl_cons]
    refine ih fun y => ?_
    by_cases hy : y.1 = w
    · rw [if_pos hy]
      have := (hW y).add ((h.separate y.2).smul (-1 : ℂ))
      rw [neg_one_smul, ← sub_eq_add_neg] at this
      exact this
    · rw [if_neg hy]
      exact hW y

theorem gwPoint_part (hi : Function.Injective ι) {W : Bubble.T4 o} (hW : Separate (Set.range ι) W) (x : o → o → ℂ) :
    gwPoint (cut ι W) (part2 ι x) = part2 ι (gwPoint W x) := by
  funext a b
  change (∑ c, ∑ e, _) = ∑ c, ∑ e, -W (ι a) c e (ι b) * x c e
  refine Fintype.sum_of_injective ι hi _ _ (fun c hn => ?_) fun c => ?_
  · refine Finset.sum_eq_zero fun e _ => ?_
    rw [(hW (ι a) c e (ι b)).resolve_left fun y => hn (y.1.1 ⟨a, rfl⟩), neg_zero, zero_mul]
  · refine Fintype.sum_of_injective ι hi _ _ (fun e hn => ?_) fun e => rfl
    rw [(hW (ι a) (ι c) e (ι b)).resolve_left fun y => hn (y.2.1.1 ⟨a, rfl⟩), neg_zero, zero_mul]

theorem gwPoint_apart {S : Set o} {W : Bubble.T4 o} (hW : Separate S W) (x : o → o → ℂ) : Apart S (Matrix.of (gwPoint W x)) := by
  intro a b
  by_cases hq : a ∈ S ↔ b ∈ S
  · exact .inl hq
  · refine .inr (Finset.sum_eq_zero fun c _ => Finset.sum_eq_zero fun e _ => ?_)
    rw [(hW a c e b).resolve_left fun y => hq y.2.2, neg_zero, zero_mul]

theorem wTr_separate (h : PartGw ι p p') {W : ℤ × Lat n → Bubble.T4 o} (hW : ∀ x, Separate (Set.range ι) (W x)) (t : ℕ) (r : Lat n) :
    Separate (Set.range ι) (fun a b c e => p.pieces.wToTau (fun w => kToR (fun k => W (w, k)) r a b c e) t) := by
  intro a b c e
  by_cases hq : Side (Set.range ι) a b ∧ Side (Set.range ι) a c ∧ Side (Set.range ι) a e
  · exact .inl hq
  · refine .inr ?_
    dsimp only
    rw [show (fun w => kToR (fun k => W (w, k)) r a b c e) = fun _ => 0 from funext fun w =>
      (kToR_separate (fun k => hW (w, k)) r a b c e).resolve_left hq, h.wToTau]

theorem sigmaDyn_part (h : PartGw ι p p') {W : ℤ × Lat n → Bubble.T4 o} (hW : ∀ x, Separate (Set.range ι) (W x)) (g : G n o)
    (w : ℤ) (k : Lat n) : p'.sigmaDyn (fun x => cut ι (W x)) (partG ι g) w k = part2 ι (p.sigmaDyn W g w k) := by
  have hgt : p'.gTr (partG ι g) = fun t r => part2 ι (p.gTr g t r) := funext fun t => funext fun r => gTr_part h g t r
  unfold SolverParams.sigmaDyn
  dsimp only
  rw [h.ranks, h.lat, h.L, h.pieces, hgt]
  have hWt : ∀ t r, (fun a b c e => p.pieces.wToTau (fun w => kToR (fun k => cut ι (W (w, k))) r a b c e) t)
      = cut ι (fun a b c e => p.pieces.wToTau (fun w => kToR (fun k => W (w, k)) r a b c e) t) := by
    intro t r
    funext a b c e
    refine congrArg (fun x => p.pieces.wToTau x t) (funext fun w => ?_)
    exact congrFun (congrFun (congrFun (congrFun (kToR_cut (fun k => W (w, k)) r) a) b) c) e
  have hs := distributedAssign_map (part2Hom ι) p.ranks ((List.range (p.L + 1)).product p.lat)
    (fun x : ℕ × Lat n => gwPoint (fun a b c e => p.pieces.wToTau (fun w => kToR (fun k => W (w, k)) x.2 a b c e) x.1) (p.gTr g x.1 x.2))
    (fun x : ℕ × Lat n => gwPoint (fun a b c e => p.pieces.wToTau (fun w => kToR (fun k => cut ι (W (w, k))) x.2 a b c e) x.1)
      (part2 ι (p.gTr g x.1 x.2))) fun x _ => by
        rw [hWt, gwPoint_part h.inj (wTr_separate h hW x.1 x.2)]
        rfl
  rw [hs]
  generalize distributedAssign p.ranks ((List.range (p.L + 1)).product p.lat) (fun x : ℕ × Lat n =>
    gwPoint (fun a b c e => p.pieces.wToTau (fun w => kToR (fun k => W (w, k)) x.2 a b c e) x.1) (p.gTr g x.1 x.2)) = y
  funext a b
  change rToK (fun r => part2 ι (fun a b => p.pieces.toFreq (fun t => y (t, r) a b) w)) k a b
    = rToK (fun r a b => p.pieces.toFreq (fun t => y (t, r) a b) w) k (ι a) (ι b)
  rw [rToK_part2]
  rfl

theorem sigmaDyn_apart (h : PartGw ι p p') {W : ℤ × Lat n → Bubble.T4 o} (hW : ∀ x, Separate (Set.range ι) (W x)) (g : G n o)
    (w : ℤ) (k : Lat n) : Apart (Set.range ι) (Matrix.of (p.sigmaDyn W g w k)) := by
  unfold SolverParams.sigmaDyn
  dsimp only
  refine rToK_apart (fun r => ?_) k
  intro a b
  by_cases hq : a ∈ Set.range ι ↔ b ∈ Set.range ι
  · exact .inl hq
  · refine .inr ?_
    change p.pieces.toFreq (fun t => distributedAssign p.ranks ((List.range (p.L + 1)).product p.lat) (fun x : ℕ × Lat n =>
      gwPoint (fun a b c e => p.pieces.wToTau (fun w => kToR (fun k => W (w, k)) x.2 a b c e) x.1) (p.gTr g x.1 x.2)) (t, r) a b) w = 0
    rw [show (fun t => distributedAssign p.ranks ((List.range (p.L + 1)).product p.lat) (fun x : ℕ × Lat n =>
      gwPoint (fun a b c e => p.pieces.wToTau (fun w => kToR (fun k => W (w, k)) x.2 a b c e) x.1) (p.gTr g x.1 x.2)) (t, r) a b)
      = fun _ => 0 from funext fun t => ?_, h.toFreq]
    exact (distributedAssign_ind (fun x : o → o → ℂ => Apart (Set.range ι) (Matrix.of x)) apart_zero (fun _ _ h1 h2 => h1.add h2)
      _ _ _ (fun x _ => gwPoint_apart (wTr_separate h hW x.1 x.2) _) (t, r) a b).resolve_left hq

theorem dispatch_part (h : PartGw ι p p') (mu : ℝ) {S : ℤ → Lat n → o → o → ℂ} (hS : ∀ w k, Apart (Set.range ι) (Matrix.of (S w k)))
    (hu : ∀ w ∈ p.freqs, ∀ k ∈ p.lat, IsUnit ((p.val w + (mu : ℂ)) • (1 : Matrix o o ℂ) - p.e k - Matrix.of (S w k)).det) :
    (∀ w k, p'.dispatch mu (some fun w k => part2 ι (S w k)) w k = part2 ι (p.dispatch mu (some S) w k)) ∧
      ∀ w k, Apart (Set.range ι) (Matrix.of (p.dispatch mu (some S) w k)) := by
  constructor
  · intro w k
    change latticeDysonGXk p'.ranks (mu : ℂ) p'.val p'.freqs p'.lat p'.e (.lattice fun w k => Matrix.of (part2 ι (S w k))) 0 (w, k)
      = part2 ι (latticeDysonGXk p.ranks (mu : ℂ) p.val p.freqs p.lat p.e (.lattice fun w k => Matrix.of (S w k)) 0 (w, k))
    rw [h.ranks, h.val, h.freqs, h.lat, h.e]
    refine congrFun (distributedAssign_map (partHom ℂ ι) _ _ _ _ fun x hx => ?_) (w, k)
    obtain ⟨h1, h2⟩ := mem_prodMesh hx
    have := dyson_part h.inj (z := p.val x.1 + 0 + (mu : ℂ)) (h.apart x.2) (hS x.1 x.2) (by rw [add_zero]; exact hu _ h1 _ h2)
    exact this.symm
  · intro w k
    refine distributedAssign_ind _ apart_zero (fun _ _ => Apart.add) _ _ _ (fun x _ => ?_) (w, k)
    exact dyson_apart (h.apart x.2) (hS x.1 x.2)

/-! ## One pass and the loop -/

/-- restriction of the results of a pass -/
def partSweep (ι : s → o) (t : Sweep n o) : Sweep n s where
  g := partG ι t.g
  mu := t.mu
  sigma := fun w k => part2 ι (t.sigma w k)
  hartree := fun k => part2 ι (t.hartree k)
  fock := fun k => part2 ι (t.fock k)
  dyn := fun w k => part2 ι (t.dyn w k)
  P := fun w k => cut ι (t.P w k)
  W := fun x => cut ι (t.W x)
  wDyn := fun x => cut ι (t.wDyn x)

/-- the matrices inverted in a pass are invertible -/
structure Regular (p : SolverParams n o) (f : Flags) (t : Sweep n o) : Prop where
  screen : ∀ w ∈ p.bfreqs, ∀ k ∈ p.lat, IsUnit (1 - pairMat (screening f.spinless (t.P w k)) * pairMat (p.V k)).det
  dyson : ∀ w ∈ p.freqs, ∀ k ∈ p.lat,
    IsUnit ((p.val w + (t.mu : ℂ)) • (1 : Matrix o o ℂ) - p.e k - Matrix.of (t.sigma w k)).det

/-- C127: one pass of the GW solver. With the chemical potential of the whole system the solver of the subsystem obtains the
restriction of all results; the new Green's function does not connect the parts. -/
theorem C127_gw_sweep (h : PartGw ι p p') (f : Flags) (mu : ℝ) (hg : ∀ w k, Apart (Set.range ι) (Matrix.of (g w k)))
    {t : Sweep n o} (ht : p.sweep f mu g = .ok t) (hr : Regular p f t) :
    p'.sweep f t.mu (partG ι g) = .ok (partSweep ι t) ∧ (∀ w k, Apart (Set.range ι) (Matrix.of (t.g w k))) ∧
      (∀ w k, Apart (Set.range ι) (Matrix.of (t.sigma w k))) ∧ ∀ x, Separate (Set.range ι) (t.W x) := by
  obtain ⟨tH, tF, tP, tW, tD, tS, hsig, hdys⟩ := sweep_ok f mu g t ht
  have hdis : t.g = p.dispatch t.mu (some t.sigma) := by
    unfold SolverParams.dyson at hdys
    split_ifs at hdys
    · have := Prod.mk.inj (Except.ok.inj hdys)
      rw [← this.1, ← this.2]
    · split at hdys
      · cases hdys
      · have := Prod.mk.inj (Except.ok.inj hdys)
        rw [← this.1, ← this.2]
  have hP : ∀ w k, Linked (Set.range ι) (t.P w k) := fun w k => by rw [tP]; exact pol_linked h hg w k
  obtain ⟨w1, w2⟩ := screened_part h f.spinless hP hr.screen
  rw [← tW] at w1 w2
  have hWd : ∀ x, Separate (Set.range ι) (t.wDyn x) := fun x => by rw [tD]; exact wDyn_separate h w2 x
  have aH : ∀ k, Apart (Set.range ι) (Matrix.of (t.hartree k)) := fun k => by rw [tH]; exact hartree_apart h g k
  have aF : ∀ k, Apart (Set.range ι) (Matrix.of (t.fock k)) := fun k => by rw [tF]; exact fock_apart h g k
  have aD : ∀ w k, Apart (Set.range ι) (Matrix.of (t.dyn w k)) := fun w k => by rw [tS]; exact sigmaDyn_apart h hWd g w k
  have aS : ∀ w k, Apart (Set.range ι) (Matrix.of (t.sigma w k)) := fun w k => by
    rw [hsig]
    have hadd : ∀ {x y : o → o → ℂ}, Apart (Set.range ι) (Matrix.of x) → Apart (Set.range ι) (Matrix.of y) →
        Apart (Set.range ι) (Matrix.of (x + y)) := fun hx hy => hx.add hy
    refine hadd (hadd ?_ ?_) ?_
    · cases f.hartree
      · exact apart_zero
      · exact aH k
    · cases f.fock
      · exact apart_zero
      · exact aF k
    · cases f.gw
      · exact apart_zero
      · exact aD w k
  obtain ⟨g1, g2⟩ := dispatch_part h t.mu aS hr.dyson
  rw [← hdis] at g1 g2
  have eH : p'.sigmaHartree (partG ι g) = fun k => part2 ι (t.hartree k) := funext fun k => by rw [tH]; exact hartree_part h g k
  have eF : p'.sigmaFock (partG ι g) = fun k => part2 ι (t.fock k) := funext fun k => by rw [tF]; exact fock_part h g k
  have eP : p'.polarization (partG ι g) = fun w k => cut ι (t.P w k) := funext fun w => funext fun k => by
    rw [tP]; exact pol_part h hg w k
  have eW : p'.screened f.spinless (fun w k => cut ι (t.P w k)) = fun x => cut ι (t.W x) := funext w1
  have eD : p'.wDyn (fun x => cut ι (t.W x)) = fun x => cut ι (t.wDyn x) := funext fun x => by rw [tD]; exact wDyn_part h t.W x
  have eS : p'.sigmaDyn (fun x => cut ι (t.wDyn x)) (partG ι g) = fun w k => part2 ι (t.dyn w k) := funext fun w => funext fun k => by
    rw [tS]; exact sigmaDyn_part h hWd g w k
  refine ⟨?_, g2, aS, w2⟩
  unfold SolverParams.sweep
  dsimp only
  rw [eH, eF, eP, eW, eD, eS]
  have hs : ∀ a b c : Bool,
      (if c then fun w k => (if b then fun w k => (if a then fun (_ : ℤ) k => (0 : s → s → ℂ) + part2 ι (t.hartree k) else fun _ _ => 0) w k
          + part2 ι (t.fock k) else (if a then fun (_ : ℤ) k => (0 : s → s → ℂ) + part2 ι (t.hartree k) else fun _ _ => 0)) w k
          + part2 ι (t.dyn w k)
        else (if b then fun w k => (if a then fun (_ : ℤ) k => (0 : s → s → ℂ) + part2 ι (t.hartree k) else fun _ _ => 0) w k
          + part2 ι (t.fock k) else (if a then fun (_ : ℤ) k => (0 : s → s → ℂ) + part2 ι (t.hartree k) else fun _ _ => 0))
        : ℤ → Lat n → s → s → ℂ)
      = fun w k => part2 ι ((if a then t.hartree k else 0) + (if b then t.fock k else 0) + (if c then t.dyn w k else 0)) := by
    intro a b c
    funext w k x y
    cases a <;> cases b <;> cases c <;> simp [part2]
  rw [hs f.hartree f.fock f.gw]
  have hs2 : (fun w k => part2 ι ((if f.hartree then t.hartree k else 0) + (if f.fock then t.fock k else 0)
      + (if f.gw then t.dyn w k else 0))) = fun w k => part2 ι (t.sigma w k) := funext fun w => funext fun k => by rw [hsig]
  rw [hs2]
  have hd : p'.dyson t.mu (some fun w k => part2 ι (t.sigma w k)) = .ok (partG ι t.g, t.mu) := by
    unfold SolverParams.dyson
    rw [if_pos h.nFix]
    refine congrArg Except.ok (Prod.ext (funext fun w => funext fun k => g1 w k) rfl)
  rw [hd]
  rfl

/-- results of the passes of a run that starts with the chemical potential `mu` and the function `g` -/
inductive Pass (p : SolverParams n o) (f : Flags) (mu : ℝ) (g : G n o) : Sweep n o → Prop
  | first {t : Sweep n o} : p.sweep f mu g = .ok t → Pass p f mu g t
  | next {t t' : Sweep n o} : Pass p f mu g t → p.sweep f t.mu t.g = .ok t' → Pass p f mu g t'

theorem Pass.cons {f : Flags} {mu : ℝ} {t u : Sweep n o} (ht : p.sweep f mu g = .ok t) (h : Pass p f t.mu t.g u) :
    Pass p f mu g u := by
  induction h with
  | first h => exact .next (.first ht) h
  | next _ h ih => exact .next ih h

theorem sweep_mu (h0 : p.nFix = 0) {f : Flags} {mu : ℝ} {t : Sweep n o} (ht : p.sweep f mu g = .ok t) : t.mu = mu := by
  obtain ⟨-, -, -, -, -, -, -, hdys⟩ := sweep_ok f mu g t ht
  unfold SolverParams.dyson at hdys
  rw [if_pos h0] at hdys
  exact (Prod.mk.inj (Except.ok.inj hdys)).2.symm

/-- the subsystem is never further from convergence than the whole -/
theorem close_part (h : PartGw ι p p') {tol : ℝ} {old : Option (G n o)} {x : G n o} (hc : p.close tol old x) :
    p'.close tol (old.map (partG ι)) (partG ι x) := by
  cases old with
  | none => exact hc
  | some y =>
    intro w hw k hk a b
    rw [h.freqs] at hw
    rw [h.lat] at hk
    exact hc w hw k hk (ι a) (ι b)

/-- C127: the loop of the GW solver without a fixed density. The run of the subsystem returns the restriction of a pass of the run of
the whole system; this is the last pass of the whole system unless the functions of the subsystem have become stationary earlier. -/
theorem C127_gw_loop (h : PartGw ι p p') (h0 : p.nFix = 0) (f : Flags) (tol : ℝ) (fuel : ℕ) (mu : ℝ)
    (hg : ∀ w k, Apart (Set.range ι) (Matrix.of (g w k))) (hr : ∀ t, Pass p f mu g t → Regular p f t) (old : Option (G n o))
    (last last' : Option _) {r : Option (Sweep n o)} (hl : p.loop f tol (fuel + 1) mu g old last = .ok r) :
    ∃ u, Pass p f mu g u ∧ p'.loop f tol (fuel + 1) mu (partG ι g) (old.map (partG ι)) last' = .ok (some (partSweep ι u)) ∧
      (r = some u ∨ (p.sweep f mu g = .ok u ∧ p'.close tol (old.map (partG ι)) (partG ι u.g)) ∨
        ∃ v, Pass p f mu g v ∧ p.sweep f v.mu v.g = .ok u ∧ p'.close tol (some (partG ι v.g)) (partG ι u.g)) := by
  induction fuel generalizing mu g old last last' with
  | zero =>
    rw [SolverParams.loop] at hl
    cases hs : p.sweep f mu g with
    | error err => rw [hs] at hl; cases hl
    | ok t =>
      rw [hs] at hl
      dsimp only at hl
      have hp := (C127_gw_sweep h f mu hg hs (hr t (.first hs))).1
      rw [sweep_mu h0 hs] at hp
      have hres : r = some t := by
        split_ifs at hl
        · exact (Except.ok.inj hl).symm
        · rw [SolverParams.loop] at hl
          exact (Except.ok.inj hl).symm
      refine ⟨t, .first hs, ?_, .inl hres⟩
      rw [SolverParams.loop, hp]
      dsimp only
      split_ifs
      · rfl
      · rw [SolverParams.loop]
  | succ fuel ih =>
    rw [SolverParams.loop] at hl
    cases hs : p.sweep f mu g with
    | error err => rw [hs] at hl; cases hl
    | ok t =>
      rw [hs] at hl
      dsimp only at hl
      obtain ⟨hp, hg', -, -⟩ := C127_gw_sweep h f mu hg hs (hr t (.first hs))
      have hmu := sweep_mu h0 hs
      rw [hmu] at hp
      by_cases hc' : p'.close tol (old.map (partG ι)) (partG ι t.g)
      · refine ⟨t, .first hs, ?_, .inr (.inl ⟨rfl, hc'⟩)⟩
        rw [SolverParams.loop, hp]
        dsimp only
        rw [if_pos (show p'.close tol (old.map (partG ι)) (partSweep ι t).g from hc')]
      · have hc : ¬ p.close tol old t.g := fun x => hc' (close_part h x)
        rw [if_neg hc] at hl
        obtain ⟨u, hu, hlu, hcase⟩ := ih t.mu hg' (fun x hx => hr x (hx.cons hs)) (some t.g) (some t) (some (partSweep ι t)) hl
        refine ⟨u, hu.cons hs, ?_, ?_⟩
        · rw [SolverParams.loop, hp]
          dsimp only
          rw [if_neg (show ¬ p'.close tol (old.map (partG ι)) (partSweep ι t).g from hc')]
          exact hlu
        · rcases hcase with hq | ⟨hs2, hq⟩ | ⟨v, hv, hvu, hq⟩
          · exact .inl hq
          · exact .inr (.inr ⟨t, .first hs, hs2, hq⟩)
          · exact .inr (.inr ⟨v, hv.cons hs, hvu, hq⟩)

/-- C127: the run of the whole system stops when the functions of both parts have become stationary. -/
theorem C127_gw_stop {s' : Type} [Fintype s'] [DecidableEq s'] {ι' : s' → o} {p'' : SolverParams n s'} (h : PartGw ι p p')
    (h' : PartGw ι' p p'') (hw : Set.range ι' = (Set.range ι)ᶜ) {tol : ℝ} (ht : 0 < tol) (old x : G n o)
    (hold : ∀ w k, Apart (Set.range ι) (Matrix.of (old w k))) (hx : ∀ w k, Apart (Set.range ι) (Matrix.of (x w k))) :
    p.close tol (some old) x ↔
      p'.close tol (some (partG ι old)) (partG ι x) ∧ p''.close tol (some (partG ι' old)) (partG ι' x) := by
  refine ⟨fun hc => ⟨close_part h hc, close_part h' hc⟩, fun ⟨h1, h2⟩ w hww k hk a b => ?_⟩
  by_cases hq : a ∈ Set.range ι ↔ b ∈ Set.range ι
  · by_cases ha : a ∈ Set.range ι
    · obtain ⟨i, rfl⟩ := ha
      obtain ⟨j, rfl⟩ := hq.1 ⟨i, rfl⟩
      exact h1 w (by rw [h.freqs]; exact hww) k (by rw [h.lat]; exact hk) i j
    · have hb : b ∉ Set.range ι := fun y => ha (hq.2 y)
      have ha' : a ∈ Set.range ι' := by rw [hw]; exact ha
      have hb' : b ∈ Set.range ι' := by rw [hw]; exact hb
      obtain ⟨i, rfl⟩ := ha'
      obtain ⟨j, rfl⟩ := hb'
      exact h2 w (by rw [h'.freqs]; exact hww) k (by rw [h'.lat]; exact hk) i j
  · have e1 : x w k a b = 0 := (hx w k a b).resolve_left hq
    have e2 : old w k a b = 0 := (hold w k a b).resolve_left hq
    rw [e1, e2, sub_zero, norm_zero]
    exact ht

end Verif.Subsystem
