import Verif.Units.Hf
import Verif.HartreeFock.SolverProps

/-!
# C126: concrete calculations in other units, and root finders of finite accuracy
-/

set_option linter.unusedSectionVars false

noncomputable section

namespace Verif.Units

open Matrix Verif.HartreeFock Verif.Lindhard

variable {m : ℕ} {κ V : Type*} {l c : ℝ}

/-- every calculation written with another unit and zero of energy -/
def unitHf (l c : ℝ) (p : Params m κ V) : Params m κ V :=
  { p with
    beta := p.beta / l
    muMin := p.muMin.map fun x => l * x + c
    muMax := p.muMax.map fun x => l * x + c
    ek := affine (l : ℂ) (c : ℂ) p.ek
    U := fun i j r s => (l : ℂ) * p.U i j r s
    brentq := fun f a b => (p.brentq (fun x => f (l * x + c)) ((a - c) / l) ((b - c) / l)).map fun x => l * x + c }

/-- the hypothesis of the theorems holds for every calculation -/
theorem unitHf_same (hl : 0 < l) (c : ℝ) (p : Params m κ V) (hs : EigSpec p.eig) (hv : EigSpec p.eigv) :
    SameProblem l c p (unitHf l c p) where
  pos := hl
  beta := rfl
  muMin := rfl
  muMax := rfl
  ek := rfl
  U := rfl
  mat2vec := rfl
  vec2mat := rfl
  eig := hs
  eig' := hs
  eigv := hv
  eigv' := hv
  brentq f a b := by
    have h1 : ∀ x : ℝ, (l * x + c - c) / l = x := fun x => by rw [add_sub_cancel_right, mul_div_cancel_left₀ _ hl.ne']
    change Except.map _ (p.brentq (fun x => f ((l * x + c - c) / l)) ((l * a + c - c) / l) ((l * b + c - c) / l)) = _
    simp only [h1]

/-- C126: the search for the chemical potential with any two root finders that keep what `brentq` promises: it succeeds in both
descriptions or in none, and the two chemical potentials agree within the tolerances. Since the tolerances are numbers, the
chemical potential in the unit `l` is only known up to `l` times them. -/
theorem C126_hf_mu [Fintype κ] [Nonempty κ] [NeZero m] {p p' : Params m κ V} (hp : SameProblem l c p p') (hb : 0 < p.beta)
    {B B' : Brentq} {xtol rtol : ℝ} (h1 : BrentSpec xtol rtol B) (h2 : BrentSpec xtol rtol B') {s s' : State m κ}
    (h : SameBands l c s s') (N : ℝ) (x x' : Option ℝ) :
    Both (fun t t' => |t'.mu - (l * t.mu + c)| ≤ xtol + rtol * |t'.mu| + l * (xtol + rtol * |t.mu|) ∧
        t = { s with mu := t.mu } ∧ t' = { s' with mu := t'.mu })
      (updateMu { p with brentq := B } s N x) (updateMu { p' with brentq := B' } s' N x') := by
  have hl := hp.pos
  rw [Basis.updateMu_eq, Basis.updateMu_eq]
  change Both _ ((B (targetFunction p s N) (p.muMin.getD (eMin p s)) (p.muMax.getD (eMax p s))).map fun mu => { s with mu := mu })
    ((B' (targetFunction p' s' N) (p'.muMin.getD (eMin p' s')) (p'.muMax.getD (eMax p' s'))).map fun mu => { s' with mu := mu })
  rw [target_affine hp h.ekMF h.herm, eMin_affine hp h.ekMF h.herm, eMax_affine hp h.ekMF h.herm, hp.muMin, hp.muMax]
  have hopt : ∀ (o : Option ℝ) (y : ℝ), (o.map fun x => l * x + c).getD (l * y + c) = l * o.getD y + c := by
    intro o y
    cases o <;> rfl
  rw [hopt, hopt]
  generalize p.muMin.getD (eMin p s) = a
  generalize p.muMax.getD (eMax p s) = b
  have ht : targetFunction p s N = fun mu => filling p.beta s.ekMF mu - N := funext fun mu => target_eq p hp.eigv s h.herm N mu
  have hcont : Continuous (targetFunction p s N) := by
    rw [ht]
    exact (filling_continuous _ _ h.herm).sub continuous_const
  have hinj : Function.Injective (targetFunction p s N) := by
    rw [ht]
    intro x y hxy
    exact (C85_unique p.beta hb s.ekMF h.herm).injective (sub_left_injective hxy)
  generalize targetFunction p s N = f at hcont hinj
  have hx : ∀ x : ℝ, (l * x + c - c) / l = x := fun x => by rw [add_sub_cancel_right, mul_div_cancel_left₀ _ hl.ne']
  by_cases hsign : 0 < f a * f b
  · rw [h1.refuses _ _ _ hsign, h2.refuses _ _ _ (by simpa only [hx] using hsign)]
    rfl
  · obtain ⟨r, hr, z, -, hz, hrz⟩ := h1.finds f a b hcont (not_lt.1 hsign)
    obtain ⟨r', hr', z', -, hz', hrz'⟩ := h2.finds (fun x => f ((x - c) / l)) (l * a + c) (l * b + c) (by fun_prop)
      (by simpa only [hx] using not_lt.1 hsign)
    rw [hr, hr']
    refine ⟨?_, rfl, rfl⟩
    change |r' - (l * r + c)| ≤ xtol + rtol * |r'| + l * (xtol + rtol * |r|)
    have hzz : z' = l * z + c := by
      have := hinj (hz'.trans hz.symm)
      field_simp at this
      linarith
    have : r' - (l * r + c) = (r' - z') + l * (z - r) := by rw [hzz]; ring
    rw [this]
    refine (abs_add_le _ _).trans (add_le_add hrz' ?_)
    rw [abs_mul, abs_of_pos hl, abs_sub_comm]
    exact mul_le_mul_of_nonneg_left hrz hl.le

end Verif.Units
