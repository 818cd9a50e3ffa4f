import Verif.HartreeFock.Model
import Verif.Lindhard.Model

/-!
# Model of `python/triqs_tprf/hf_response.py`

The finite difference response of the mean field density matrix (`BaseResponse`) and the two response
classes built on it. The eigensolver (`np_eigh`, python/triqs_tprf/numpy_compat.py:38-54) is an argument of
type `Lindhard.Eig`. Real and complex numbers are exact. Printing is not modelled.
-/

noncomputable section

namespace Verif.HfResponse

open Verif.HartreeFock (fermi)
open Verif.Lindhard (Eig)

variable {n : ℕ} {κ : Type*}

/-- The data of a `BaseResponse` object (hf_response.py:40-65): the dispersion has the chemical potential
subtracted. -/
structure Base (n : ℕ) (κ : Type*) where
  /-- `self.beta` -/
  beta : ℝ
  /-- `self.eps` -/
  eps : ℝ
  /-- `self.e_k.data` -/
  ek : κ → Matrix (Fin n) (Fin n) ℂ

/-- The part of a Hartree-Fock solver that the response classes read. -/
structure Solver (n : ℕ) (κ : Type*) where
  /-- `solver.beta` -/
  beta : ℝ
  /-- `solver.mu` -/
  mu : ℝ
  /-- `solver.e_k_MF` -/
  ekMF : κ → Matrix (Fin n) (Fin n) ℂ
  /-- `solver.U_abcd` -/
  U : Operators.T4 n

/-- `BaseResponse.__init__` (hf_response.py:40-65): `e_k_MF.copy()`, then `-= mu * I`. The default of `eps`
is given by the callers below. -/
def baseInit (s : Solver n κ) (eps : ℝ) : Base n κ :=
  { beta := s.beta, eps := eps, ek := fun k => s.ekMF k - (s.mu : ℂ) • 1 }

/-- `einsum('kab,kb,kcb->kac', U, fermi(e, beta), conj(U))` (hf_response.py:83-89), at one momentum. -/
def rhoOf (eig : Eig (Fin n)) (beta : ℝ) (E : Matrix (Fin n) (Fin n) ℂ) : Matrix (Fin n) (Fin n) ℂ :=
  let p := eig E
  fun a c => ∑ b, p.2 a b * (fermi beta (p.1 b) : ℂ) * (starRingEnd ℂ) (p.2 c b)

/-- `_compute_drho_k_dop` (hf_response.py:76-93) -/
def drhoK (eig : Eig (Fin n)) (b : Base n κ) (op : Matrix (Fin n) (Fin n) ℂ) (k : κ) :
    Matrix (Fin n) (Fin n) ℂ :=
  let Ep := b.ek k + (b.eps : ℂ) • op
  let Em := b.ek k - (b.eps : ℂ) • op
  fun a c => (rhoOf eig b.beta Ep a c - rhoOf eig b.beta Em a c) / (2 * (b.eps : ℂ))

/-- `_compute_drho_dop` (hf_response.py:68-73) -/
def drho [Fintype κ] (eig : Eig (Fin n)) (b : Base n κ) (op : Matrix (Fin n) (Fin n) ℂ) :
    Matrix (Fin n) (Fin n) ℂ :=
  fun a c => (∑ k, drhoK eig b op k a c) / (Fintype.card κ : ℂ)

/-- `_compute_chi0_ab` (hf_response.py:96-107): row `a` is minus the diagonal of the response to a field on
orbital `a`. -/
def chi0ab [Fintype κ] (eig : Eig (Fin n)) (b : Base n κ) : Matrix (Fin n) (Fin n) ℂ :=
  fun a c =>
    let Fa : Matrix (Fin n) (Fin n) ℂ := fun i j => if i = a ∧ j = a then 1 else 0
    (-drho eig b Fa c c)

/-- the field of hf_response.py:116-118 and hf_response.py:132-134: `F[a, b] += p` and then `F[b, a] += conj(p)` on zeros -/
def field (p : ℂ) (a b : Fin n) : Matrix (Fin n) (Fin n) ℂ :=
  let F1 : Matrix (Fin n) (Fin n) ℂ := fun i j => if i = a ∧ j = b then p else 0
  fun i j => if i = b ∧ j = a then F1 i j + (starRingEnd ℂ) p else F1 i j

/-- `_compute_R_abcd` (hf_response.py:110-123). Every pair `(a, b)` is visited once, so the entry
`[x, y, :, :]` is the one written for `a = y`, `b = x`. -/
def rAbcd [Fintype κ] (eig : Eig (Fin n)) (bs : Base n κ) (p : ℂ) : Operators.T4 n :=
  fun x y c d => -drho eig bs (field p y x) c d

/-- `_compute_R_kabcd` (hf_response.py:126-139) -/
def rKabcd (eig : Eig (Fin n)) (bs : Base n κ) (p : ℂ) (k : κ) : Operators.T4 n :=
  fun x y c d => -drhoK eig bs (field p y x) k c d

/-- `_compute_chi0_kabcd` (hf_response.py:150-157) -/
def chi0Kabcd (eig : Eig (Fin n)) (bs : Base n κ) (k : κ) : Operators.T4 n :=
  fun a b c d => 0.5 * (rKabcd eig bs 1 k a b c d + ((rKabcd eig bs Complex.I k a b c d).im : ℂ))

/-- `_compute_chi0_abcd` (hf_response.py:142-147) -/
def chi0Abcd [Fintype κ] (eig : Eig (Fin n)) (bs : Base n κ) : Operators.T4 n :=
  fun a b c d => (∑ k, chi0Kabcd eig bs k a b c d) / (Fintype.card κ : ℂ)

/-- `_to_matrix_AB` (hf_response.py:226-228); the combined index is kept as a pair. -/
def toMat (t : Operators.T4 n) : Matrix (Fin n × Fin n) (Fin n × Fin n) ℂ :=
  fun A B => t A.1 A.2 B.1 B.2

/-- `_to_tensor_abcd` (hf_response.py:230-232) -/
def toTen (m : Matrix (Fin n × Fin n) (Fin n × Fin n) ℂ) : Operators.T4 n :=
  fun a b c d => m (a, b) (c, d)

/-- A `HartreeFockResponse` object. -/
structure Hfr (n : ℕ) (κ : Type*) where
  /-- fields of the base class -/
  base : Base n κ
  /-- `self.chi0_abcd` -/
  chi0 : Operators.T4 n
  /-- `self.chi_abcd` -/
  chi : Operators.T4 n
  /-- `self.chi0_kabcd`: the assignment is commented out (hf_response.py:209-211), the attribute does not exist -/
  chi0k : Option (κ → Operators.T4 n)

/-- the default step `eps=1e-9` (hf_response.py:40) -/
def defaultEps : ℝ := 1 / 10 ^ 9

/-- `HartreeFockResponse.__init__` on a base object (hf_response.py:200-207):
`inv(I - chi0 * U) * chi0`. `LinAlgError` for a singular matrix is not modelled; the theorems assume an
invertible one. -/
def hfrOf [Fintype κ] (eig : Eig (Fin n)) (U : Operators.T4 n) (b : Base n κ) : Hfr n κ :=
  let Umat := toMat U
  let chi0 := toMat (chi0Abcd eig b)
  let chi := (1 - chi0 * Umat)⁻¹ * chi0
  { base := b, chi0 := toTen chi0, chi := toTen chi, chi0k := none }

/-- `HartreeFockResponse.__init__` (hf_response.py:195-211): the argument `eps` is accepted, the base class
constructor is called without it. -/
def hfrInit [Fintype κ] (eig : Eig (Fin n)) (s : Solver n κ) (_eps : ℝ) : Hfr n κ :=
  hfrOf eig s.U (baseInit s defaultEps)

/-- `bare_response` (hf_response.py:237-244); operators have the right shape by typing. -/
def bareResponse (r : Hfr n κ) (op1 op2 : Matrix (Fin n) (Fin n) ℂ) : ℂ :=
  ∑ a, ∑ b, ∑ c, ∑ d, op1 a b * r.chi0 a b c d * op2 c d

/-- `response` (hf_response.py:246-253) -/
def response (r : Hfr n κ) (op1 op2 : Matrix (Fin n) (Fin n) ℂ) : ℂ :=
  ∑ a, ∑ b, ∑ c, ∑ d, op1 a b * r.chi a b c d * op2 c d

/-- `compute_chi0_k` (hf_response.py:255-262) -/
def computeChi0K (r : Hfr n κ) : Except String (κ → Operators.T4 n) :=
  match r.chi0k with
  | none => .error "AttributeError"
  | some c => .ok c

/-- A `HartreeResponse` object. -/
structure Hr (n : ℕ) (κ : Type*) where
  /-- fields of the base class -/
  base : Base n κ
  /-- `self.chi0_ab` -/
  chi0 : Matrix (Fin n) (Fin n) ℂ
  /-- `self.chi_ab` -/
  chi : Matrix (Fin n) (Fin n) ℂ

/-- `extract_dens_dens` (hf_response.py:317-323) -/
def extractDensDens (t : Operators.T4 n) : Matrix (Fin n) (Fin n) ℂ := fun i j => t i i j j

/-- `HartreeResponse.__init__` on a base object (hf_response.py:284-290):
`chi0 * inv(I - U * chi0)`. -/
def hrOf [Fintype κ] (eig : Eig (Fin n)) (U : Operators.T4 n) (b : Base n κ) : Hr n κ :=
  let Umat := extractDensDens U
  let chi0 := chi0ab eig b
  { base := b, chi0 := chi0, chi := chi0 * (1 - Umat * chi0)⁻¹ }

/-- `HartreeResponse.__init__` (hf_response.py:280-290): `eps` is not passed on. -/
def hrInit [Fintype κ] (eig : Eig (Fin n)) (s : Solver n κ) (_eps : ℝ) : Hr n κ :=
  hrOf eig s.U (baseInit s defaultEps)

/-- `__check_op` (hf_response.py:292-297): the operator has to be diagonal. (`assert_almost_equal` accepts
off-diagonal entries below `1.5e-7`; here the entries have to be zero.) -/
def diagonalOp (op : Matrix (Fin n) (Fin n) ℂ) : Prop := ∀ a b, a ≠ b → op a b = 0

open Classical in
/-- `HartreeResponse.bare_response` (hf_response.py:299-306) -/
def hrBareResponse (r : Hr n κ) (op1 op2 : Matrix (Fin n) (Fin n) ℂ) : Except String ℂ :=
  if ¬ diagonalOp op1 then .error "AssertionError"
  else if ¬ diagonalOp op2 then .error "AssertionError"
  else .ok (∑ a, ∑ b, op1 a a * r.chi0 a b * op2 b b)

open Classical in
/-- `HartreeResponse.response` (hf_response.py:308-315) -/
def hrResponse (r : Hr n κ) (op1 op2 : Matrix (Fin n) (Fin n) ℂ) : Except String ℂ :=
  if ¬ diagonalOp op1 then .error "AssertionError"
  else if ¬ diagonalOp op2 then .error "AssertionError"
  else .ok (∑ a, ∑ b, op1 a a * r.chi a b * op2 b b)

end Verif.HfResponse
