import Verif.Bubble.Routes
import Verif.Bse.Props

/-!
# C99: the high frequency correction of the Bethe-Salpeter equation

`solve_lattice_bse` (`/repo/python/triqs_tprf/bse.py:388-402`) adds the bubble from imaginary time and subtracts the sum of the
bubble over the fermionic frequencies of the vertex, to correct for the frequencies outside of the mesh of the vertex. The
correction has to vanish when the mesh grows.
-/

noncomputable section

set_option linter.unusedSectionVars false

namespace Verif.Bse

open Verif.Parallel Verif.Fourier Verif.Bubble Filter

variable {d : ℕ} {n : Fin d → ℕ} [∀ i, NeZero (n i)] {o : Type} [Fintype o] [DecidableEq o]

/-- The bubble of `get_chi0_wnk` (`/repo/python/triqs_tprf/bse.py:158-251`) for the Green's function with the poles `p`,
known at all frequencies: product in real space, transformed to momentum. -/
def exactChi0 (beta : ℝ) (p : Poles n o) (w nu : ℤ) (k : Lat n) : Bubble.T4 o :=
  rToK (fun r => chi0rPoint (beta : ℂ) (fun nu => kToR (p.freq beta nu)) r w nu) k

theorem exactChi0_eq (beta : ℝ) (p : Poles n o) (w nu : ℤ) (k : Lat n) :
    exactChi0 beta p w nu k = chi0nFromGwk (beta : ℂ) (p.freq beta) w k nu := by
  have hnd : ([nu, nu + w] : List ℤ).dedup.Nodup := List.nodup_dedup _
  have h := C07_real_space_bubble (n := n) (o := o) 1 1 1 one_pos one_pos one_pos (beta : ℂ) _ hnd Finset.univ.toList
    (Finset.nodup_toList _) (fun r => Finset.mem_toList.2 (Finset.mem_univ r)) [(w, nu)] (List.nodup_singleton _)
    (p.freq beta) w nu (List.mem_singleton_self _) (by simp) (by simp) k
  rw [← h, chi0qFromChi0r, C02_distributedAssign 1 one_pos _ (List.nodup_singleton _), if_pos (List.mem_singleton_self _)]
  unfold exactChi0
  congr 1
  funext r
  rw [chi0rFromGr, C02_distributedAssign 1 one_pos _ (Finset.nodup_toList _), if_pos (Finset.mem_toList.2 (Finset.mem_univ r))]
  funext a b c d
  unfold chi0rPoint fourierWkToWr
  rw [C02_distributedAssign 1 one_pos _ hnd, C02_distributedAssign 1 one_pos _ hnd, if_pos (by simp), if_pos (by simp)]

/-- what the solver returns for a vertex on the window `S` -/
def windowSolution (ranks : ℕ) (beta : ℝ) (mesh : List (Lat n × ℤ)) (wkmesh : List (ℤ × Lat n)) (rmesh : List (Lat n))
    (p : Poles n o) (S : Finset ℤ) (gamma : ℤ → T6 S o ℂ) : Lat n × ℤ → Bubble.T4 o :=
  (solveLatticeBse (ν := S) ranks (beta : ℂ) mesh wkmesh (fun w k => imtimeRoute ranks beta rmesh p w k)
    (fun w nu k => exactChi0 beta p w nu.1 k) gamma).1

/-- the Bethe-Salpeter equation on the window `S`, without correction -/
def windowBse (beta : ℝ) (p : Poles n o) (S : Finset ℤ) (gamma : ℤ → T6 S o ℂ) (k : Lat n) (w : ℤ) : Bubble.T4 o :=
  fun a b c d => (∑ n1, ∑ n2, bsePoint (diagEmbed fun nu : S => exactChi0 beta p w nu.1 k) (gamma w) n1 n2 a b c d)
    / ((beta : ℂ) * beta)

variable {ranks : ℕ} (hr : 0 < ranks) (beta : ℝ) (hb : 0 < beta) {rmesh : List (Lat n)} (hnd : rmesh.Nodup)
  (hall : ∀ r, r ∈ rmesh) {mesh : List (Lat n × ℤ)} {wkmesh : List (ℤ × Lat n)} (hm : mesh.Nodup) (hm' : wkmesh.Nodup)

include hr hb hnd hall hm hm'

/-- C99: for growing windows the correction tends to the difference of the bubbles at the frequency and at its negative,
for all vertices. -/
theorem C99_tail_partial (p : Poles n o) (gamma : ∀ S : Finset ℤ, ℤ → T6 S o ℂ) (k : Lat n) (w : ℤ)
    (hp : (k, w) ∈ mesh) (hp' : (w, k) ∈ wkmesh) (a b c e : o) :
    Tendsto (fun S : Finset ℤ => windowSolution ranks beta mesh wkmesh rmesh p S (gamma S) (k, w) a b c e
        - windowBse beta p S (gamma S) k w a b c e) atTop
      (nhds (imtimeRoute ranks beta rmesh p w k a b c e - imtimeRoute ranks beta rmesh p (-w) k a b c e)) := by
  have h := (C92_routes_partial hr hr beta hb hnd hall hm' p w k hp' a b c e).const_sub
    (imtimeRoute ranks beta rmesh p w k a b c e)
  refine h.congr fun S => ?_
  have h27 := (C27_solve_lattice_bse (ν := S) ranks hr (beta : ℂ) mesh wkmesh hm hm'
    (fun w k => imtimeRoute ranks beta rmesh p w k) (fun w nu k => exactChi0 beta p w nu.1 k) (gamma S) k w hp hp' a b c e).1
  rw [windowSolution, h27]
  have h2 : imfreqRoute ranks beta wkmesh p S w k a b c e
      = (∑ nu : S, exactChi0 beta p w nu.1 k a b c e) / ((beta : ℂ) * beta) := by
    have h := C02_distributedAssign ranks hr wkmesh hm' (fun w : ℤ × Lat n => fun a b c d =>
      (∑ nu : S, chi0nFromGwk (beta : ℂ) (p.freq beta) w.1 w.2 nu.1 a b c d) / ((beta : ℂ) * beta)) (w, k)
    rw [imfreqRoute, chi0qSumNu, h, if_pos hp']
    simp only [exactChi0_eq]
  rw [h2, windowBse]
  unfold chiqFromChi0qAndGamma
  ring

/-- C99: the static susceptibility needs no correction for an infinite window. -/
theorem C99_static_partial (p : Poles n o) (gamma : ∀ S : Finset ℤ, ℤ → T6 S o ℂ) (k : Lat n)
    (hp : (k, 0) ∈ mesh) (hp' : (0, k) ∈ wkmesh) (a b c e : o) :
    Tendsto (fun S : Finset ℤ => windowSolution ranks beta mesh wkmesh rmesh p S (gamma S) (k, 0) a b c e
        - windowBse beta p S (gamma S) k 0 a b c e) atTop (nhds 0) := by
  have h := C99_tail_partial hr beta hb hnd hall hm hm' p gamma k 0 hp hp' a b c e
  rwa [neg_zero, sub_self] at h

/-- C99: nor do the components that couple densities, with time reversal symmetry. -/
theorem C99_density_partial (p : Poles n o) (hrev : p.Reversible) (gamma : ∀ S : Finset ℤ, ℤ → T6 S o ℂ) (k : Lat n) (w : ℤ)
    (hp : (k, w) ∈ mesh) (hp' : (w, k) ∈ wkmesh) (a c : o) :
    Tendsto (fun S : Finset ℤ => windowSolution ranks beta mesh wkmesh rmesh p S (gamma S) (k, w) a a c c
        - windowBse beta p S (gamma S) k w a a c c) atTop (nhds 0) := by
  have h := C99_tail_partial hr beta hb hnd hall hm hm' p gamma k w hp hp' a a c c
  rwa [C92_reversible hr beta hb hnd hall p hrev, sub_self] at h

end Verif.Bse

namespace Verif.Bse

open Verif.Parallel Verif.Fourier Verif.Bubble Filter

/-- C99: an atom with two levels: at nonzero frequencies the correction does not vanish, however large the window, because
the two bubbles are those of opposite frequencies. -/
theorem C99_violated {ranks : ℕ} (hr : 0 < ranks) (beta : ℝ) (hb : 0 < beta)
    {rmesh : List (Lat (fun _ : Fin 1 => 1))} (hnd : rmesh.Nodup) (hall : ∀ r, r ∈ rmesh)
    {mesh : List (Lat (fun _ : Fin 1 => 1) × ℤ)} {wkmesh : List (ℤ × Lat (fun _ : Fin 1 => 1))} (hm : mesh.Nodup)
    (hm' : wkmesh.Nodup) (x y : ℝ) (hxy : x ≠ y) (w : ℤ) (hw : w ≠ 0) (hp : (0, w) ∈ mesh) (hp' : (w, 0) ∈ wkmesh)
    (gamma : ∀ S : Finset ℤ, ℤ → T6 S (Fin 2) ℂ) :
    ¬ Tendsto (fun S : Finset ℤ => windowSolution ranks beta mesh wkmesh rmesh (twoLevels x y) S (gamma S) (0, w) 0 1 1 0
        - windowBse beta (twoLevels x y) S (gamma S) 0 w 0 1 1 0) atTop (nhds 0) := by
  intro hcon
  have h := C99_tail_partial hr beta hb hnd hall hm hm' (twoLevels x y) gamma 0 w hp hp' 0 1 1 0
  have h0 := tendsto_nhds_unique hcon h
  refine C92_frequency_violated hr hr beta hb hnd hall hm' x y hxy w hw hp' ?_
  have h92 := C92_routes_partial hr hr beta hb hnd hall hm' (twoLevels x y) w 0 hp' 0 1 1 0
  rwa [← sub_eq_zero.1 h0.symm] at h92

/-- the hypotheses of the theorems above: two frequencies on one site -/
example : ∃ (rmesh : List (Lat (fun _ : Fin 1 => 1))) (mesh : List (Lat (fun _ : Fin 1 => 1) × ℤ))
    (wkmesh : List (ℤ × Lat (fun _ : Fin 1 => 1))), rmesh.Nodup ∧ (∀ r, r ∈ rmesh) ∧ mesh.Nodup ∧ wkmesh.Nodup ∧
      (0, 1) ∈ mesh ∧ (0, 0) ∈ mesh ∧ (1, 0) ∈ wkmesh ∧ (0, 0) ∈ wkmesh ∧ (twoLevels 0 1).Reversible := by
  refine ⟨[0], [(0, 0), (0, 1)], [(0, 0), (1, 0)], by simp, fun r => ?_, by simp, by simp, by simp, by simp, by simp, by simp,
    twoLevels_reversible 0 1⟩
  have : r = 0 := funext fun _ => Subsingleton.elim (α := Fin 1) _ _
  simp [this]

end Verif.Bse
