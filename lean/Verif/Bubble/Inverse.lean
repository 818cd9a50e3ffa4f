import Verif.Bubble.Props

/-!
# C07: `chi0r_from_chi0q` and `chi0q_from_chi0r` are inverse to each other
-/

set_option linter.unusedSectionVars false

noncomputable section

namespace Verif.Bubble

open Complex Verif.Parallel Verif.Fourier

variable {d : ℕ} {n : Fin d → ℕ} [∀ i, NeZero (n i)] {o : Type*} [Fintype o] [DecidableEq o]

/-- C07: transforming a bubble to real space and back, or to momentum space and back, gives the bubble again at every frequency of the
mesh. -/
theorem C07_inverse (r1 r2 : ℕ) (h1 : 0 < r1) (h2 : 0 < r2) (wn : List (ℤ × ℤ)) (hwn : wn.Nodup) (p : ℤ × ℤ) (hp : p ∈ wn) :
    (∀ chi : ℤ × ℤ → Lat n → T4 o, chi0qFromChi0r r1 wn (fun r w nu => chi0rFromChi0q r2 wn chi (w, nu) r) p = chi p) ∧
    ∀ (chi : Lat n → ℤ → ℤ → T4 o) (r : Lat n), chi0rFromChi0q r1 wn (chi0qFromChi0r r2 wn chi) p r = chi r p.1 p.2 := by
  refine ⟨fun chi => ?_, fun chi r => ?_⟩
  · rw [chi0qFromChi0r, C02_distributedAssign r1 h1 _ hwn, if_pos hp]
    have e : (fun r => chi0rFromChi0q r2 wn chi (p.1, p.2) r) = kToR (chi p) := by
      funext r
      rw [chi0rFromChi0q, C02_distributedAssign r2 h2 _ hwn, if_pos hp]
    rw [e, rToK_kToR]
  · rw [chi0rFromChi0q, C02_distributedAssign r1 h1 _ hwn, if_pos hp, chi0qFromChi0r, C02_distributedAssign r2 h2 _ hwn, if_pos hp,
      kToR_rToK]

/-- C07: the momentum sum, transformed to real space, is the product of two Green's functions in real space. -/
theorem C07_momentum_to_real (r1 r2 r3 : ℕ) (h1 : 0 < r1) (h2 : 0 < r2) (h3 : 0 < r3) (beta : ℂ)
    (numesh : List ℤ) (hnu : numesh.Nodup) (rmesh : List (Lat n)) (hr : rmesh.Nodup)
    (hrall : ∀ r, r ∈ rmesh) (wn : List (ℤ × ℤ)) (hwn : wn.Nodup) (g : G n o)
    (w nu : ℤ) (hp : (w, nu) ∈ wn) (hin : nu ∈ numesh) (hin' : nu + w ∈ numesh) (r : Lat n) :
    chi0rFromChi0q r3 wn (fun p q => chi0nFromGwk beta g p.1 q p.2) (w, nu) r
      = chi0rFromGr r2 beta rmesh (fourierWkToWr r1 numesh g) r w nu := by
  rw [← (C07_inverse r3 r3 h3 h3 wn hwn (w, nu) hp).2 (chi0rFromGr r2 beta rmesh (fourierWkToWr r1 numesh g)) r, chi0rFromChi0q,
    C02_distributedAssign r3 h3 _ hwn, if_pos hp, chi0rFromChi0q, C02_distributedAssign r3 h3 _ hwn, if_pos hp]
  congr 1
  funext q
  exact (C07_real_space_bubble r1 r2 r3 h1 h2 h3 beta numesh hnu rmesh hr hrall wn hwn g w nu hp hin hin' q).symm

/-- the hypotheses hold on one lattice site with two fermionic frequencies -/
example (g : G (fun _ : Fin 1 => 1) (Fin 1)) : chi0rFromChi0q 1 [(1, 0)] (fun p q => chi0nFromGwk 2 g p.1 q p.2) (1, 0) 0
    = chi0rFromGr 2 2 [0] (fourierWkToWr 1 [0, 1] g) 0 1 0 :=
  C07_momentum_to_real 1 2 1 one_pos two_pos one_pos 2 [0, 1] (by decide) [0] (by decide)
    (fun r => List.mem_singleton.2 (funext fun _ => Subsingleton.elim (α := ZMod 1) _ _)) [(1, 0)] (by decide) g 1 0 (by decide)
    (by decide) (by decide) 0

end Verif.Bubble
