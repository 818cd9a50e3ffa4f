import Verif.Supercell.Vertex
import Verif.Subsystem.Hf

/-!
# C128: the unit cell in the mean-field solvers
-/

set_option linter.unusedSectionVars false

noncomputable section

namespace Verif.Supercell

open Verif.Fourier Verif.Lindhard Verif.HartreeFock Matrix Classical
open Verif.Subsystem (momentumDensity_apply Solution)

variable {d d' : ℕ} {n : Fin d → ℕ} {m : Fin d' → ℕ} [∀ i, NeZero (n i)] [∀ i, NeZero (m i)] {q Q : ℕ} {V V' : Type*}
  {c : Cell n m (Fin q) (Fin Q)} {s : Setoid (Fin q)}

/-- the same problem with another unit cell, with its own external routines -/
structure CellHf (c : Cell n m (Fin q) (Fin Q)) (s : Setoid (Fin q)) (p : Params q (Lat n) V) (p' : Params Q (Lat m) V') : Prop where
  atoms : Atoms c s
  beta : p'.beta = p.beta
  ek : p'.ek = c.up p.ek
  U : p'.U = place c s p.U
  onsite : Onsite s p.U
  eig : EigSpec p.eig
  eig' : EigSpec p'.eig
  eigv : EigSpec p.eigv
  eigv' : EigSpec p'.eigv

/-- the same density matrix on every atom -/
def Agree (c : Cell n m (Fin q) (Fin Q)) (s : Setoid (Fin q)) (rho : Matrix (Fin q) (Fin q) ℂ) (rho' : Matrix (Fin Q) (Fin Q) ℂ) : Prop :=
  ∀ x y, Near c s x y → rho' x y = rho (c.orb x) (c.orb y)

theorem sum_near2 (ha : Atoms c s) (x : Fin Q) (F : Fin q → Fin q → ℂ) :
    (∑ z, ∑ u, if Near c s x z ∧ Near c s x u then F (c.orb z) (c.orb u) else 0)
      = ∑ z, ∑ u, if s.r (c.orb x) z ∧ s.r (c.orb x) u then F z u else 0 := by
  have h : ∀ {P R : Prop} (t : ℂ), (if P ∧ R then t else 0) = if P then if R then t else 0 else 0 := by
    intro P R t
    by_cases hP : P <;> by_cases hR : R <;> simp [hP, hR]
  simp only [h, pull_if]
  rw [← sum_near ha x fun z => ∑ u, if s.r (c.orb x) u then F z u else 0]
  refine Finset.sum_congr rfl fun z _ => ?_
  congr 1
  rw [← sum_near ha x fun u => F (c.orb z) u]

theorem meanField_cell (ha : Atoms c s) {U : Operators.T4 q} (hU : Onsite s U) {rho : Matrix (Fin q) (Fin q) ℂ}
    {rho' : Matrix (Fin Q) (Fin Q) ℂ} (h : Agree c s rho rho') : meanField (place c s U) rho' = place1 c s (meanField U rho) := by
  ext y x
  change (∑ z, ∑ u, -place c s U x y z u * rho' z u) = if Near c s y x then (∑ z, ∑ u, -U (c.orb x) (c.orb y) z u * rho z u) else 0
  by_cases hn : Near c s y x
  · rw [if_pos hn]
    have e1 : ∀ z u, -place c s U x y z u * rho' z u
        = if Near c s x z ∧ Near c s x u then -U (c.orb x) (c.orb y) (c.orb z) (c.orb u) * rho (c.orb z) (c.orb u) else 0 := by
      intro z u
      by_cases h1 : Near c s x z ∧ Near c s x u
      · rw [if_pos h1]
        unfold place
        rw [if_pos ⟨hn.symm, hn.trans h1.1, h1.1.symm.trans h1.2⟩, h z u (h1.1.symm.trans h1.2)]
      · rw [if_neg h1]
        unfold place
        rw [if_neg fun h2 => h1 ⟨h2.1.trans h2.2.1, (h2.1.trans h2.2.1).trans h2.2.2⟩, neg_zero, zero_mul]
    have e2 : ∀ z u, -U (c.orb x) (c.orb y) z u * rho z u
        = if s.r (c.orb x) z ∧ s.r (c.orb x) u then -U (c.orb x) (c.orb y) z u * rho z u else 0 := by
      intro z u
      by_cases h0 : U (c.orb x) (c.orb y) z u = 0
      · rw [h0, neg_zero, zero_mul, ite_self]
      · have h1 := hU _ _ _ _ h0
        exact (if_pos ⟨s.trans h1.1 h1.2.1, s.trans (s.trans h1.1 h1.2.1) h1.2.2⟩).symm
    simp only [e1]
    rw [sum_near2 ha x fun z u => -U (c.orb x) (c.orb y) z u * rho z u]
    exact Finset.sum_congr rfl fun z _ => Finset.sum_congr rfl fun u _ => (e2 z u).symm
  · rw [if_neg hn]
    refine Finset.sum_eq_zero fun z _ => Finset.sum_eq_zero fun u _ => ?_
    unfold place
    rw [if_neg fun h1 => hn h1.1.symm, neg_zero, zero_mul]

theorem meanField_near {U : Operators.T4 q} (hU : Onsite s U) (rho : Matrix (Fin q) (Fin q) ℂ) (a b : Fin q)
    (h : meanField U rho a b ≠ 0) : s.r a b := by
  by_contra h'
  refine h (Finset.sum_eq_zero fun z _ => Finset.sum_eq_zero fun u _ => ?_)
  rw [show U b a z u = 0 from by_contra fun h0 => h' (s.symm (hU _ _ _ _ h0).1), neg_zero, zero_mul]

theorem density_eq (r : Lat n → Matrix (Fin q) (Fin q) ℂ) : density r = kToR r 0 := by
  ext a b
  rw [kToR_entry, kToR_lin]
  change (∑ k, r k a b) / _ = _
  simp only [ker_zero_right, mul_one, smul_eq_mul]
  rw [← Finset.mul_sum, div_eq_inv_mul]

theorem density_cell (r : Lat n → Matrix (Fin q) (Fin q) ℂ) (x y : Fin Q) :
    density (c.up r) x y = kToR r (c.pos x - c.pos y) (c.orb x) (c.orb y) := by
  rw [density_eq, c.kToR_up]
  change kToR r (c.emb 0 + c.pos x - c.pos y) (c.orb x) (c.orb y) = _
  rw [map_zero, zero_add]

theorem density_agree (r : Lat n → Matrix (Fin q) (Fin q) ℂ) : Agree c s (density r) (density (c.up r)) := by
  intro x y h
  rw [density_cell, h.1, sub_self, density_eq]

theorem trace_density (r : Lat n → Matrix (Fin q) (Fin q) ℂ) :
    (Fintype.card (Lat m) : ℂ) * ∑ x, density (c.up r) x x = (Fintype.card (Lat n) : ℂ) * ∑ a, density r a a := by
  have h := c.sum_orb fun a => density r a a
  rw [← h]
  congr 1
  exact Finset.sum_congr rfl fun x _ => density_agree (s := ⊥) r x x (Near.refl x)

theorem momentumDensity_cell {p : Params q (Lat n) V} {p' : Params Q (Lat m) V'} (h : CellHf c s p p') (mu : ℝ)
    {X : Lat n → Matrix (Fin q) (Fin q) ℂ} (hX : ∀ k, (X k).IsHermitian) :
    momentumDensity p'.beta mu (fun K => (p'.eig (c.up X K)).1) (fun K => (p'.eig (c.up X K)).2)
      = c.up (momentumDensity p.beta mu (fun k => (p.eig (X k)).1) fun k => (p.eig (X k)).2) := by
  funext K
  rw [momentumDensity_apply p'.beta mu p'.eig (c.up X) K, h.beta]
  have e : momentumDensity p.beta mu (fun k => (p.eig (X k)).1) (fun k => (p.eig (X k)).2)
      = fun k => matFun (p.eig (X k)) fun y => (HartreeFock.fermi p.beta (y - mu) : ℂ) := funext fun k =>
    momentumDensity_apply p.beta mu p.eig X k
  rw [e]
  exact (c.up_matFun (fun k => h.eig _ (hX k)) (fun K => h.eig' _ (c.up_isHermitian hX K)) _ K).symm

section Step

variable [NeZero q] [NeZero Q] {p : Params q (Lat n) V} {p' : Params Q (Lat m) V'}

/-- C128: one step of the solver with the same chemical potential, from density matrices that agree on the atoms: all fields are the
same functions of the lattice vectors. -/
theorem C128_hf_step (h : CellHf c s p p') {st s1 : State q (Lat n)} {v w : V} {N : Option ℝ}
    (hstep : densityStep p st v N = .ok (s1, w)) (hk : ∀ k, (p.ek k + meanField p.U (p.vec2mat v)).IsHermitian)
    (st' : State Q (Lat m)) (hmu : st'.mu = s1.mu) (v' : V') (hv : Agree c s (p.vec2mat v) (p'.vec2mat v')) :
    ∃ s1', densityStep p' st' v' none = .ok (s1', p'.mat2vec s1'.rho) ∧ s1'.mu = s1.mu ∧ s1'.M = place1 c s s1.M ∧
      s1'.ekMF = c.up s1.ekMF ∧ s1'.rhok = c.up s1.rhok ∧
      (∀ x y, s1'.rho x y = kToR s1.rhok (c.pos x - c.pos y) (c.orb x) (c.orb y)) ∧ Agree c s s1.rho s1'.rho ∧
      (Fintype.card (Lat m) : ℂ) * s1'.ntot = (Fintype.card (Lat n) : ℂ) * s1.ntot := by
  have hfields : s1.M = meanField p.U (p.vec2mat v) ∧ s1.ekMF = meanFieldDispersion p.ek s1.M ∧
      s1.rhok = momentumDensity p.beta s1.mu (fun k => (p.eig (s1.ekMF k)).1) (fun k => (p.eig (s1.ekMF k)).2) ∧
      s1.rho = density s1.rhok ∧ s1.ntot = ∑ a, s1.rho a a := by
    unfold densityStep at hstep
    cases N with
    | none =>
      dsimp only at hstep
      have := (Prod.mk.inj (Except.ok.inj hstep)).1
      rw [← this]
      exact ⟨rfl, rfl, rfl, rfl, rfl⟩
    | some N =>
      dsimp only [updateMu] at hstep
      generalize hb : p.brentq _ _ _ = r at hstep
      cases r with
      | error e => cases hstep
      | ok mu =>
        dsimp only at hstep
        have := (Prod.mk.inj (Except.ok.inj hstep)).1
        rw [← this]
        exact ⟨rfl, rfl, rfl, rfl, rfl⟩
  obtain ⟨hM, hE, hR, hD, hN⟩ := hfields
  have hEh : ∀ k, (s1.ekMF k).IsHermitian := fun k => by rw [hE, hM]; exact hk k
  have eM : meanField p'.U (p'.vec2mat v') = place1 c s s1.M := by rw [h.U, meanField_cell h.atoms h.onsite hv, hM]
  have eE : meanFieldDispersion p'.ek (place1 c s s1.M) = c.up s1.ekMF := by
    funext K
    rw [hE, h.ek]
    change c.up p.ek K + place1 c s s1.M = c.up (fun k => p.ek k + s1.M) K
    rw [c.up_add, up_const h.atoms fun a b hab => ?_]
    rw [hM] at hab
    exact meanField_near h.onsite _ a b hab
  set t := updateDensity p' (updateDispersion p' (updateMeanField p' st' (p'.vec2mat v'))) with ht
  have hval : densityStep p' st' v' none = .ok (t, p'.mat2vec t.rho) := rfl
  have f1 : t.M = place1 c s s1.M := eM
  have f2 : t.ekMF = c.up s1.ekMF := by
    change meanFieldDispersion p'.ek (meanField p'.U (p'.vec2mat v')) = _
    rw [eM, eE]
  have f3 : t.rhok = c.up s1.rhok := by
    change momentumDensity p'.beta st'.mu (fun k => (p'.eig (meanFieldDispersion p'.ek (meanField p'.U (p'.vec2mat v')) k)).1)
      (fun k => (p'.eig (meanFieldDispersion p'.ek (meanField p'.U (p'.vec2mat v')) k)).2) = _
    rw [eM, eE, hmu, hR]
    exact momentumDensity_cell h s1.mu hEh
  have f4 : t.rho = density (c.up s1.rhok) := by
    change density t.rhok = _
    rw [f3]
  refine ⟨t, hval, hmu, f1, f2, f3, fun x y => ?_, ?_, ?_⟩
  · rw [f4, density_cell]
  · rw [f4, hD]
    exact density_agree _
  · have e : t.ntot = ∑ x, t.rho x x := rfl
    rw [e, f4, hN, hD]
    exact trace_density _

end Step

/-! ## Energies -/

theorem eInt_cell (ha : Atoms c s) {U : Operators.T4 q} (hU : Onsite s U) {rho : Matrix (Fin q) (Fin q) ℂ}
    {rho' : Matrix (Fin Q) (Fin Q) ℂ} (h : Agree c s rho rho') :
    (Fintype.card (Lat m) : ℂ) * eInt (place c s U) rho' = (Fintype.card (Lat n) : ℂ) * eInt U rho := by
  have h1 : ∀ {r : ℕ} (U : Operators.T4 r) (rho : Matrix (Fin r) (Fin r) ℂ), eInt U rho
      = 1 / 2 * ∑ a, ∑ b, -(rho a b * meanField U rho b a) := by
    intro r U rho
    unfold eInt meanField
    congr 1
    refine Finset.sum_congr rfl fun a _ => Finset.sum_congr rfl fun b _ => ?_
    rw [Finset.mul_sum, ← Finset.sum_neg_distrib]
    refine Finset.sum_congr rfl fun z _ => ?_
    rw [Finset.mul_sum, ← Finset.sum_neg_distrib]
    exact Finset.sum_congr rfl fun u _ => by ring
  rw [h1, h1, meanField_cell ha hU h]
  have h2 : ∀ x, (∑ y, -(rho' x y * place1 c s (meanField U rho) y x)) = ∑ b, -(rho (c.orb x) b * meanField U rho b (c.orb x)) := by
    intro x
    have e1 : ∀ y, -(rho' x y * place1 c s (meanField U rho) y x)
        = if Near c s x y then -(rho (c.orb x) (c.orb y) * meanField U rho (c.orb y) (c.orb x)) else 0 := by
      intro y
      by_cases hn : Near c s x y
      · rw [if_pos hn, h x y hn]
        unfold place1
        rw [if_pos hn.symm]
      · rw [if_neg hn]
        unfold place1
        rw [if_neg fun h' => hn h'.symm, mul_zero, neg_zero]
    simp only [e1]
    rw [sum_near ha x fun b => -(rho (c.orb x) b * meanField U rho b (c.orb x))]
    refine Finset.sum_congr rfl fun b _ => ?_
    by_cases hb : s.r (c.orb x) b
    · exact if_pos hb
    · rw [if_neg hb, show meanField U rho b (c.orb x) = 0 from
        by_contra fun h0 => hb (s.symm (meanField_near hU rho _ _ h0)), mul_zero, neg_zero]
  simp only [h2]
  have h3 := c.sum_orb fun a => ∑ b, -(rho a b * meanField U rho b a)
  linear_combination (1 / 2 : ℂ) * h3

theorem eKin_cell (e r : Lat n → Matrix (Fin q) (Fin q) ℂ) :
    (Fintype.card (Lat m) : ℂ) * eKin (c.up e) (c.up r) = (Fintype.card (Lat n) : ℂ) * eKin e r := by
  have h1 : ∀ {d : ℕ} {n : Fin d → ℕ} [∀ i, NeZero (n i)] {q : ℕ} (e r : Lat n → Matrix (Fin q) (Fin q) ℂ),
      (Fintype.card (Lat n) : ℂ) * eKin e r = ∑ k, (e k * r k).trace := by
    intro d n _ q e r
    unfold eKin
    rw [mul_div_cancel₀ _ card_ne_zero']
    refine Finset.sum_congr rfl fun k _ => ?_
    simp only [Matrix.trace, Matrix.diag_apply, Matrix.mul_apply]
  rw [h1, h1, ← c.trace_up]
  refine Finset.sum_congr rfl fun K _ => ?_
  rw [c.up_mul]

theorem band_sum_cell {X : Lat n → Matrix (Fin q) (Fin q) ℂ} {a : Lat n → (Fin q → ℝ) × Matrix (Fin q) (Fin q) ℂ}
    {b : Lat m → (Fin Q → ℝ) × Matrix (Fin Q) (Fin Q) ℂ} (ha : ∀ k, Diag (X k) (a k)) (hb : ∀ K, Diag (c.up X K) (b K)) (f : ℝ → ℝ) :
    ∑ K, ∑ i, f ((b K).1 i) = ∑ k, ∑ i, f ((a k).1 i) := by
  have key : ∑ K, ∑ i, ((f ((b K).1 i) : ℝ) : ℂ) = ∑ k, ∑ i, ((f ((a k).1 i) : ℝ) : ℂ) := by
    have h1 : ∀ K, ∑ i, ((f ((b K).1 i) : ℝ) : ℂ) = (c.up (fun k => matFun (a k) fun x => (f x : ℂ)) K).trace := fun K => by
      rw [c.up_matFun ha hb, Basis.trace_matFun (hb K) fun x => (f x : ℂ)]
    have h2 : ∀ k, ∑ i, ((f ((a k).1 i) : ℝ) : ℂ) = (matFun (a k) fun x => (f x : ℂ)).trace := fun k => by
      rw [Basis.trace_matFun (ha k) fun x => (f x : ℂ)]
    simp only [h1, h2]
    exact c.trace_up _
  exact_mod_cast key

section Energy

variable [NeZero q] [NeZero Q] {p : Params q (Lat n) V} {p' : Params Q (Lat m) V'}

/-- C128: the energies per cell times the number of cells, that is the energies of the whole crystal. -/
theorem C128_hf_energies (h : CellHf c s p p') {st : State q (Lat n)} {st' : State Q (Lat m)} (hmu : st'.mu = st.mu)
    (hE : st'.ekMF = c.up st.ekMF) (hr : Agree c s st.rho st'.rho) (hh : ∀ k, (st.ekMF k).IsHermitian) :
    let N : ℂ := Fintype.card (Lat n)
    let N' : ℂ := Fintype.card (Lat m)
    N' * (updateTotalEnergy p' st').ekin = N * (updateTotalEnergy p st).ekin ∧
      N' * (updateTotalEnergy p' st').eint = N * (updateTotalEnergy p st).eint ∧
      N' * (updateTotalEnergy p' st').etot = N * (updateTotalEnergy p st).etot ∧
      N' * (updateTotalEnergy p' st').omega0 = N * (updateTotalEnergy p st).omega0 ∧
      N' * (updateTotalEnergy p' st').omega = N * (updateTotalEnergy p st).omega ∧
      N' * (updateDensity p' st').ntot = N * (updateDensity p st).ntot := by
  intro N N'
  have r1 := momentumDensity_cell h st.mu hh
  have hkin : N' * (updateTotalEnergy p' st').ekin = N * (updateTotalEnergy p st).ekin := by
    change N' * eKin p'.ek (momentumDensity p'.beta st'.mu (fun k => (p'.eig (st'.ekMF k)).1) (fun k => (p'.eig (st'.ekMF k)).2))
      = N * eKin p.ek (momentumDensity p.beta st.mu (fun k => (p.eig (st.ekMF k)).1) (fun k => (p.eig (st.ekMF k)).2))
    rw [hmu, hE, r1, h.ek]
    exact eKin_cell _ _
  have hint : N' * (updateTotalEnergy p' st').eint = N * (updateTotalEnergy p st).eint := by
    change N' * eInt p'.U st'.rho = N * eInt p.U st.rho
    rw [h.U]
    exact eInt_cell h.atoms h.onsite hr
  have h0 : N' * (updateTotalEnergy p' st').omega0 = N * (updateTotalEnergy p st).omega0 := by
    change N' * ((omega0 p'.beta st'.mu (fun k => (p'.eigv (st'.ekMF k)).1) : ℝ) : ℂ)
      = N * ((omega0 p.beta st.mu (fun k => (p.eigv (st.ekMF k)).1) : ℝ) : ℂ)
    have h1 := band_sum_cell (c := c) (a := fun k => p.eigv (st.ekMF k)) (b := fun K => p'.eigv (c.up st.ekMF K))
      (fun k => h.eigv _ (hh k)) (fun K => h.eigv' _ (c.up_isHermitian hh K)) fun x => Real.log (1 + Real.exp (-p.beta * (x - st.mu)))
    rw [hmu, hE, h.beta]
    unfold omega0
    rw [h1]
    push_cast
    rw [mul_div_cancel₀ _ (card_ne_zero' (n := m)), mul_div_cancel₀ _ (card_ne_zero' (n := n))]
  refine ⟨hkin, hint, ?_, h0, ?_, ?_⟩
  · change N' * ((updateTotalEnergy p' st').ekin + (updateTotalEnergy p' st').eint)
      = N * ((updateTotalEnergy p st).ekin + (updateTotalEnergy p st).eint)
    rw [mul_add, mul_add, hkin, hint]
  · change N' * ((((updateTotalEnergy p' st').omega0 : ℝ) : ℂ) + (updateTotalEnergy p' st').eint)
      = N * ((((updateTotalEnergy p st).omega0 : ℝ) : ℂ) + (updateTotalEnergy p st).eint)
    rw [mul_add, mul_add, h0, hint]
  · change N' * ∑ a, density (momentumDensity p'.beta st'.mu (fun k => (p'.eig (st'.ekMF k)).1) (fun k => (p'.eig (st'.ekMF k)).2)) a a
      = N * ∑ a, density (momentumDensity p.beta st.mu (fun k => (p.eig (st.ekMF k)).1) (fun k => (p.eig (st.ekMF k)).2)) a a
    rw [hmu, hE, r1]
    exact trace_density _

end Energy

/-! ## Solutions -/

theorem thermal_cell (beta mu : ℝ) {X : Lat n → Matrix (Fin q) (Fin q) ℂ} (hX : ∀ k, (X k).IsHermitian) :
    Agree c s (thermalDensity beta X mu) (thermalDensity beta (c.up X) mu) := by
  obtain ⟨ei, hs⟩ := exists_eigSpec (o := Fin q)
  obtain ⟨ei', hs'⟩ := exists_eigSpec (o := Fin Q)
  have e1 : thermalDensity beta X mu = density fun k => matFun (ei (X k)) fun y => (HartreeFock.fermi beta (y - mu) : ℂ) := by
    ext a b
    change ((Fintype.card (Lat n) : ℂ)⁻¹ • ∑ k, HfResponse.fermiMatrix beta (X k - (mu : ℂ) • 1)) a b = _
    rw [Matrix.smul_apply, Matrix.sum_apply, smul_eq_mul]
    change _ = (∑ k, _) / _
    rw [div_eq_inv_mul]
    congr 1
    refine Finset.sum_congr rfl fun k _ => ?_
    rw [fermiMatrix_shift beta mu (hs _ (hX k))]
  have e2 : thermalDensity beta (c.up X) mu
      = density (c.up fun k => matFun (ei (X k)) fun y => (HartreeFock.fermi beta (y - mu) : ℂ)) := by
    ext a b
    change ((Fintype.card (Lat m) : ℂ)⁻¹ • ∑ k, HfResponse.fermiMatrix beta (c.up X k - (mu : ℂ) • 1)) a b = _
    rw [Matrix.smul_apply, Matrix.sum_apply, smul_eq_mul]
    change _ = (∑ k, _) / _
    rw [div_eq_inv_mul]
    congr 1
    refine Finset.sum_congr rfl fun K _ => ?_
    rw [fermiMatrix_shift beta mu (hs' _ (c.up_isHermitian hX K)),
      c.up_matFun (fun k => hs _ (hX k)) fun K => hs' _ (c.up_isHermitian hX K)]
  rw [e1, e2]
  exact density_agree _

/-- C128: the mean-field solutions. Every solution is one with the other cell, and a solution that is the same on all copies of an
atom is one with the smaller cell. -/
theorem C128_hf_solutions (ha : Atoms c s) {U : Operators.T4 q} (hU : Onsite s U) (beta mu : ℝ) (ek : Lat n → Matrix (Fin q) (Fin q) ℂ)
    (rho : Matrix (Fin q) (Fin q) ℂ) (hh : ∀ k, (ek k + meanField U rho).IsHermitian) :
    (Solution U beta mu ek rho → ∃ rho', Agree c s rho rho' ∧ Solution (place c s U) beta mu (c.up ek) rho') ∧
      ∀ rho', Agree c s rho rho' → Solution (place c s U) beta mu (c.up ek) rho' →
        ∃ rho1, Solution U beta mu ek rho1 ∧ Agree c s rho1 rho' := by
  have hup : (c.up fun k => ek k + meanField U rho) = fun K => c.up ek K + place1 c s (meanField U rho) := by
    funext K
    rw [c.up_add, up_const ha (meanField_near hU rho)]
  have hth := thermal_cell (c := c) (s := s) beta mu hh
  rw [hup] at hth
  constructor
  · intro h
    have h1 : Agree c s rho (thermalDensity beta (fun K => c.up ek K + place1 c s (meanField U rho)) mu) := by
      intro x y hn
      rw [hth x y hn, ← h]
    refine ⟨_, h1, ?_⟩
    unfold Solution
    rw [meanField_cell ha hU h1]
  · intro rho' hag h
    unfold Solution at h
    rw [meanField_cell ha hU hag] at h
    have h1 : Agree c s (thermalDensity beta (fun k => ek k + meanField U rho) mu) rho' := by
      intro x y hn
      rw [← hth x y hn, ← h]
    refine ⟨thermalDensity beta (fun k => ek k + meanField U rho) mu, ?_, h1⟩
    -- the mean field only sees the elements on the atoms
    have h2 : meanField U (thermalDensity beta (fun k => ek k + meanField U rho) mu) = meanField U rho := by
      ext b a
      refine Finset.sum_congr rfl fun z _ => Finset.sum_congr rfl fun u _ => ?_
      by_cases h0 : U a b z u = 0
      · rw [h0, neg_zero, zero_mul, zero_mul]
      · have hzu := (hU _ _ _ _ h0).2.2
        obtain ⟨⟨S, x⟩, hx⟩ := c.bij.2 (0, z)
        have hx2 : c.orb x = z := (Prod.mk.inj hx).2
        subst hx2
        obtain ⟨y, hy, hp⟩ := ha x u hzu
        subst hy
        have hn : Near c s x y := ⟨hp.symm, hzu⟩
        rw [← h1 x y hn, hag x y hn]
    unfold Solution
    rw [h2]

end Verif.Supercell
