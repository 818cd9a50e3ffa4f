import Verif.Reversal.Gw
import Verif.Reversal.Hf
import Verif.Mirror.Examples

/-!
# C131: cases that meet the hypotheses, and what the relations say for a model that is its own reversal
-/

set_option linter.unusedSectionVars false

noncomputable section

namespace Verif.Reversal.Examples

open Complex Matrix Verif.Parallel Verif.Fourier Verif.Bubble Verif.Gw Verif.Dyson Verif.Mirror.Examples

/-! ## A ring of four sites with two orbitals -/

/-- the dispersion of the examples is not its own reversal -/
theorem bands_moves : revE Neg.neg bands (fun _ => 1) ≠ bands (fun _ => 1) := by
  intro h
  have := congrFun (congrFun h 0) 0
  have h1 : ¬ ((-1 : ZMod 4) = 1) := by decide
  simp [revE, bands, h1] at this

example (w : ℤ) (k : Lat Four) :
    latticeDysonG0Xk 3 1 (fun w => Mirror.nuVal 2 w * I) four (Finset.univ : Finset (Lat Four)).toList (revE Neg.neg bands) (w, k)
      = (latticeDysonG0Xk 3 1 (fun w => Mirror.nuVal 2 w * I) four (Finset.univ : Finset (Lat Four)).toList bands (w, -k))ᵀ :=
  (C131_dyson (by decide) 1 _ (prodMesh_nodup (by decide) (complete_toList Four).1) (fun k => by simp) bands (.local fun _ => 0) 0 w k).1

/-- the Lindhard function, for every tolerance and at every frequency -/
example {eig : Lindhard.Eig (Fin 2)} (hs : Lindhard.EigSpec eig) (z : ℂ) (q : Lat Four) :
    Lindhard.lindhard 3 eig (1 / 1000) 5 1 (Finset.univ : Finset (Lat Four)).toList (revE Neg.neg bands) z q
      = rev4 (Lindhard.lindhard 2 eig (1 / 1000) 5 1 (Finset.univ : Finset (Lat Four)).toList bands z (-q)) :=
  C131_lindhard (by decide) (by decide) hs hs _ _ _ (complete_toList Four) bands bands_herm z q

/-! ## Models that are their own reversal -/

/-- real and even hopping -/
def chain (k : Lat Four) : Matrix (Fin 2) (Fin 2) ℂ := !![if k 0 = 0 then -2 else if k 0 = 2 then 2 else 0, 1; 1, 3]

theorem chain_rev : revE Neg.neg chain = chain := by
  funext k
  have h0 : ((-k : Lat Four) 0 = 0) ↔ k 0 = 0 := neg_eq_zero
  have h2 : ((-k : Lat Four) 0 = 2) ↔ k 0 = 2 := by
    change -(k 0) = 2 ↔ k 0 = 2
    rw [neg_eq_iff_eq_neg]
    rfl
  unfold revE chain
  simp only [h0, h2]
  ext i j
  fin_cases i <;> fin_cases j <;> rfl

theorem chain_herm (k : Lat Four) : (chain k).IsHermitian := by
  unfold chain
  ext i j
  fin_cases i <;> fin_cases j
  · change star (if k 0 = 0 then (-2 : ℂ) else if k 0 = 2 then 2 else 0) = _
    split_ifs <;> simp_all
  · simp
  · simp
  · simp

/-- C131: for a model that is its own reversal the susceptibility at `-q` is that at `q` read backwards. -/
theorem C131_lindhard_symmetric {dm : ℕ} {n : Fin dm → ℕ} [∀ i, NeZero (n i)] {o : Type} [Fintype o] [DecidableEq o] {ranks : ℕ}
    (hr : 0 < ranks) {eig : Lindhard.Eig o} (hs : Lindhard.EigSpec eig) (tol beta mu : ℝ) {kmesh : List (Lat n)} (hc : Complete kmesh)
    (e : Lat n → Matrix o o ℂ) (he : ∀ k, (e k).IsHermitian) (hrev : revE Neg.neg e = e) (z : ℂ) (q : Lat n) (a b c d : o) :
    Lindhard.lindhard ranks eig tol beta mu kmesh e z q a b c d = Lindhard.lindhard ranks eig tol beta mu kmesh e z (-q) d c b a := by
  have := C131_lindhard hr hr hs hs tol beta mu hc e he z q
  rw [hrev] at this
  rw [this]
  rfl

example {eig : Lindhard.Eig (Fin 2)} (hs : Lindhard.EigSpec eig) (z : ℂ) (q : Lat Four) (a b c d : Fin 2) :
    Lindhard.lindhard 3 eig (1 / 1000) 5 1 (Finset.univ : Finset (Lat Four)).toList chain z q a b c d
      = Lindhard.lindhard 3 eig (1 / 1000) 5 1 (Finset.univ : Finset (Lat Four)).toList chain z (-q) d c b a :=
  C131_lindhard_symmetric (by decide) hs _ _ _ (complete_toList Four) chain chain_herm chain_rev z q a b c d

/-! ## Mean field -/

theorem hubbard_rev (u : ℝ) : rev4 (hubbard u) = hubbard u := by
  funext a b c d
  unfold rev4 hubbard
  fin_cases a <;> fin_cases b <;> fin_cases c <;> fin_cases d <;> simp

theorem hubbard_exch (u : ℝ) (a b c d : Fin 2) : hubbard u a b c d = hubbard u c d a b := by
  unfold hubbard
  fin_cases a <;> fin_cases b <;> fin_cases c <;> fin_cases d <;> simp

/-- a Hubbard site in a field along the second axis: not its own reversal, the moment turns round -/
def field : Unit → Matrix (Fin 2) (Fin 2) ℂ := fun _ => !![0, -I; I, 0]

theorem field_rev : revE (Equiv.refl Unit) field = fun k => -field k := by
  funext k
  ext i j
  fin_cases i <;> fin_cases j <;> simp [revE, field]

example (u beta mu : ℝ) (rho : Matrix (Fin 2) (Fin 2) ℂ)
    (hh : ∀ k, (field k + HartreeFock.meanField (hubbard u) rho).IsHermitian) :
    Subsystem.Solution (hubbard u) beta mu (fun k => -field k) rhoᵀ ↔ Subsystem.Solution (hubbard u) beta mu field rho := by
  have h := C131_hf_solutions (nk := Equiv.refl Unit) (hubbard_exch u) beta mu field rho hh
  rw [hubbard_rev, field_rev] at h
  exact h

/-! ## The GW solver -/

/-- the reversed problem, with another number of processes -/
def back (beta : ℝ) : SolverParams Four (Fin 2) :=
  { problem beta with
    ranks := 5
    e := revE Neg.neg bands
    V := fun k => rev4 (inter (-k)) }

theorem problem_back (beta : ℝ) : RevGw (problem beta) (back beta) where
  good := ⟨show 0 < 2 by decide, complete_toList Four, show four.Nodup by decide, show [(-1 : ℤ), 0, 1].Nodup by decide⟩
  good' := ⟨show 0 < 5 by decide, complete_toList Four, show four.Nodup by decide, show [(-1 : ℤ), 0, 1].Nodup by decide⟩
  freqs := rfl
  bfreqs := rfl
  nw := rfl
  L := rfl
  beta := rfl
  val := rfl
  pieces := rfl
  boseFreq := rfl
  nFix := rfl
  bracket := rfl
  brentq := rfl
  e := fun _ => rfl
  V := fun _ => rfl
  exch := fun a b c d => by
    have := congrFun (congrFun (congrFun (congrFun (inter_exch 0) a) b) c) d
    rw [neg_zero] at this
    exact this

example (f : Flags) (tol beta mu : ℝ) (m : ℕ) (g : G Four (Fin 2)) :
    (back beta).loop f tol m mu (revG g) none none
      = ((problem beta).loop f tol m mu g none none).map (Option.map revSweep) :=
  C131_gw_run (problem_back beta) f tol m mu g none none

/-- the same with real and even hopping: its own reversal -/
def even (beta : ℝ) : SolverParams Four (Fin 2) := { problem beta with e := chain }

theorem inter_rev (k : Lat Four) : inter k = rev4 (inter (-k)) := by
  funext a b c d
  have h0 : ((-k : Lat Four) 0 = 0) ↔ k 0 = 0 := neg_eq_zero
  unfold inter rev4
  simp only [h0]
  fin_cases a <;> fin_cases b <;> fin_cases c <;> fin_cases d <;> simp

theorem even_rev (beta : ℝ) : RevGw (even beta) (even beta) where
  good := ⟨show 0 < 2 by decide, complete_toList Four, show four.Nodup by decide, show [(-1 : ℤ), 0, 1].Nodup by decide⟩
  good' := ⟨show 0 < 2 by decide, complete_toList Four, show four.Nodup by decide, show [(-1 : ℤ), 0, 1].Nodup by decide⟩
  freqs := rfl
  bfreqs := rfl
  nw := rfl
  L := rfl
  beta := rfl
  val := rfl
  pieces := rfl
  boseFreq := rfl
  nFix := rfl
  bracket := rfl
  brentq := rfl
  e := fun k => (congrFun chain_rev k).symm
  V := inter_rev
  exch := fun a b c d => by
    have := congrFun (congrFun (congrFun (congrFun (inter_exch 0) a) b) c) d
    rw [neg_zero] at this
    exact this

example (f : Flags) (beta mu : ℝ) {t : Sweep Four (Fin 2)}
    (ht : (even beta).sweep f mu ((even beta).dispatch mu none) = .ok t) (w : ℤ) (k : Lat Four) (a b : Fin 2) :
    t.g w k a b = t.g w (-k) b a := by
  have hg : revG ((even beta).dispatch mu none) = (even beta).dispatch mu none := (dispatch_rev (even_rev beta) none mu).symm
  have := (C131_gw_symmetric (even_rev beta) f mu hg ht).1
  conv_lhs => rw [← this]
  rfl

end Verif.Reversal.Examples
