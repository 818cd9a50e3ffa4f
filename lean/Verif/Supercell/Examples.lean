import Verif.Supercell.Ring
import Verif.Supercell.Lindhard
import Verif.Supercell.Hf

/-!
# C128: systems that meet the hypotheses
-/

set_option linter.unusedSectionVars false

noncomputable section

namespace Verif.Supercell

open Verif.Fourier Verif.Parallel Verif.Dyson Verif.Rpa Verif.Bse Matrix Classical

theorem all_full {d : ℕ} {n : Fin d → ℕ} [∀ i, NeZero (n i)] : Full (Finset.univ : Finset (Lat n)).toList :=
  ⟨Finset.nodup_toList _, fun k => Finset.mem_toList.2 (Finset.mem_univ k)⟩

/-! ## The ring with hopping between neighbours -/

/-- the dispersion of the ring -/
def ringE : Lat Six → Matrix Unit Unit ℂ := fun k => Matrix.of fun _ _ => rToK hop k

theorem rToK_hop (k : Lat Six) : rToK hop k = ker (at' 1) k * (1 / 2) + ker (at' 5) k * (1 / 2) := by
  rw [show hop = fun r => (if r = at' 1 then 1 / 2 else 0) + if r = at' 5 then 1 / 2 else 0 from rfl, rToK_add', rToK_at, rToK_at]

theorem rToK_hop_norm (k : Lat Six) : ‖rToK hop k‖ ≤ 1 := by
  rw [rToK_hop]
  refine (norm_add_le _ _).trans ?_
  rw [norm_mul, norm_mul, norm_ker, norm_ker]
  norm_num

theorem ringE_det (k : Lat Six) : IsUnit ((5 : ℂ) • (1 : Matrix Unit Unit ℂ) - ringE k).det := by
  rw [Matrix.det_eq_elem_of_subsingleton _ (), isUnit_iff_ne_zero]
  change (5 : ℂ) * 1 - rToK hop k ≠ 0
  intro h
  have h1 := rToK_hop_norm k
  rw [← sub_eq_zero.1 h] at h1
  norm_num at h1

/-- the Green's function of the ring at energy five, with one and with two sites in a cell -/
example (K : Lat Three) : latticeDysonG0Xk 2 (0 : ℂ) (fun _ : ℤ => 5) [0] Finset.univ.toList (ring.up ringE) (0, K)
    = ring.up (fun k => latticeDysonG0Xk 1 (0 : ℂ) (fun _ : ℤ => 5) [0] Finset.univ.toList ringE (0, k)) K :=
  (C128_dyson (c := ring) Nat.one_pos Nat.two_pos 0 (fun _ : ℤ => 5) (List.nodup_singleton 0) all_full all_full ringE (.local fun _ => 0)
    (.local fun _ => 0) (fun _ _ => (ring.up_zero _).symm) 0 (fun _ _ k => by rw [add_zero]; exact ringE_det k)
    fun _ _ k => by
      rw [add_zero, add_zero]
      change IsUnit ((5 : ℂ) • (1 : Matrix Unit Unit ℂ) - ringE k - 0).det
      rw [sub_zero]
      exact ringE_det k).1 0 K

/-- the static bubble between two neighbours that sit in one cell, and between two in different cells -/
example (beta : ℂ) (L : ℕ) (gt : ℕ → Lat Six → Unit → Unit → ℂ) :
    Bubble.chi0W0r 2 beta L Finset.univ.toList (fun t => ring.fold (gt t)) 0 false false true true
        = Bubble.chi0W0r 1 beta L Finset.univ.toList gt (at' 1) () () () () ∧
      Bubble.chi0W0r 2 beta L Finset.univ.toList (fun t => ring.fold (gt t)) (fun _ => 1) true true false false
        = Bubble.chi0W0r 1 beta L Finset.univ.toList gt (at' 1) () () () () := by
  have h := fun (R : Lat Three) (x z : Bool) => (C128_bubble (c := ring) Nat.one_pos Nat.two_pos beta L all_full all_full (fun _ _ => 0) gt
    (fun _ _ => 0) R (x := x) (y := x) (z := z) (u := z) rfl rfl).2.1
  have h1 := h 0 false true
  have h2 := h (fun _ => 1) true false
  have v1 : ring.emb 0 + ring.pos true - ring.pos false = at' 1 := by
    funext i
    change double 0 + 1 - 0 = 1
    decide
  have v2 : ring.emb (fun _ => 1) + ring.pos false - ring.pos true = at' 1 := by
    funext i
    change double 1 + 0 - 1 = 1
    decide
  rw [v1] at h1
  rw [v2] at h2
  exact ⟨h1, h2⟩

/-! ## The random phase approximation -/

/-- a bubble between neighbours -/
def bubble : Lat Six → Bubble.T4 Unit := fun k _ _ _ _ => ringP k

theorem bubble_det (k : Lat Six) : IsUnit (1 - pairMat (bubble k) * pairMat unitU).det := by
  rw [Matrix.det_eq_elem_of_subsingleton _ ((), ()), Matrix.sub_apply, Matrix.one_apply_eq, Matrix.mul_apply, Fintype.sum_subsingleton _ ((), ()),
    isUnit_iff_ne_zero]
  change 1 - ringP k * 1 ≠ 0
  rw [mul_one]
  exact ringP_ne k

/-- the susceptibility of the Hubbard model on the ring, with one and with two sites in a cell -/
example : PairOf ring ⊤ (fun k => solveRpaPH 1 (prodMesh [(0 : ℤ)] Finset.univ.toList) (fun x => bubble x.2) unitU (0, k))
    fun K => solveRpaPH 2 (prodMesh [(0 : ℤ)] Finset.univ.toList) (fun x => spread ring ⊤ bubble x.2) (place ring ⊤ unitU) (0, K) :=
  C128_rpa ring_atoms Nat.one_pos Nat.two_pos (List.nodup_singleton 0) all_full all_full (fun x => bubble x.2)
    (fun x => spread ring ⊤ bubble x.2) (fun _ => spread_pairOf _) ring_onsite (fun x => bubble_det x.2) 0

/-- an interaction between neighbours -/
def neighbourV : Lat Six → Bubble.T4 Unit := fun k _ _ _ _ => rToK hop k

/-- the interaction between neighbours, screened by the bubble -/
example : ∀ w, ∀ f f', screenedOpt 1 (prodMesh [(0 : ℤ)] Finset.univ.toList) Finset.univ.toList Finset.univ.toList (fun x => bubble x.2) neighbourV = .ok f →
    screenedOpt 2 (prodMesh [(0 : ℤ)] Finset.univ.toList) Finset.univ.toList Finset.univ.toList (fun x => spread ring ⊤ bubble x.2)
      (spread ring ⊤ neighbourV) = .ok f' → PairOf ring ⊤ (fun k => f (w, k)) fun K => f' (w, K) := by
  intro w f f' hf hf'
  refine (C128_screened ring_atoms Nat.one_pos Nat.two_pos (List.nodup_singleton (0 : ℤ)) all_full all_full (fun x => bubble x.2)
    (fun x => spread ring ⊤ bubble x.2) (fun _ => spread_pairOf _) neighbourV (fun _ _ _ _ _ _ => ⟨trivial, trivial⟩) fun _ k => ?_).2.1 f f' hf hf' w
  rw [Matrix.det_eq_elem_of_subsingleton _ ((), ()), Matrix.sub_apply, Matrix.one_apply_eq, Matrix.mul_apply, Fintype.sum_subsingleton _ ((), ()),
    isUnit_iff_ne_zero]
  change 1 - ringP k * rToK hop k ≠ 0
  intro h
  have h1 : ‖ringP k * rToK hop k‖ ≤ 1 / 2 * 1 := by
    rw [norm_mul]
    exact mul_le_mul (ringP_norm k) (rToK_hop_norm k) (norm_nonneg _) (by norm_num)
  rw [← sub_eq_zero.1 h, norm_one] at h1
  norm_num at h1

/-- the Bethe-Salpeter equation with a local vertex -/
example : PairOf6 ring ⊤ (fun k => chiqFromChi0qAndGamma (fun (_ : ℤ) (_ : Fin 1) k => bubble k) (fun _ _ _ => unitU) k 0)
    fun K => chiqFromChi0qAndGamma (fun (_ : ℤ) (_ : Fin 1) K => spread ring ⊤ bubble K) (fun _ => place6 ring ⊤ fun _ _ => unitU) K 0 :=
  (C128_lattice_bse (W := ℤ) (ν := Fin 1) ring_atoms Nat.one_pos Nat.two_pos 1 (List.nodup_singleton 0) all_full all_full (fun _ _ => 0) (fun _ _ => 0)
    (fun _ => PairOf.zero) (fun _ _ k => bubble k) (fun _ _ K => spread ring ⊤ bubble K) (fun _ _ => spread_pairOf _) (fun _ _ _ => unitU)
    (fun _ _ _ => ring_onsite) (fun _ _ => unitU) (fun _ _ => ring_onsite) (fun _ => unitU) (fun _ => ring_onsite) (fun k _ => by
      rw [Matrix.det_eq_elem_of_subsingleton _ (0, (), ()), Matrix.sub_apply, Matrix.one_apply_eq, Matrix.mul_apply,
        Fintype.sum_subsingleton _ (0, (), ()), isUnit_iff_ne_zero]
      change 1 - ringP k * 1 ≠ 0
      rw [mul_one]
      exact ringP_ne k) 0).1

/-! ## The Lindhard function -/

theorem ringE_hermitian (k : Lat Six) : (ringE k).IsHermitian := by
  ext a b
  change (starRingEnd ℂ) (rToK hop k) = rToK hop k
  have h : ∀ x : Lat Six, (starRingEnd ℂ) (ker x k) = ker (-x) k := fun x => by
    rw [ker, ker, map_prod]
    refine Finset.prod_congr rfl fun i _ => ?_
    rw [Pi.neg_apply, neg_mul, AddChar.map_neg_eq_conj]
  rw [rToK_hop, map_add, map_mul, map_mul, h, h, neg_one_five, neg_five_one, add_comm]
  simp [Complex.conj_ofNat]

/-- the Lindhard function of the ring: from a site to its neighbour in the next cell -/
example (eig : Lindhard.Eig Unit) (eig' : Lindhard.Eig Bool) (hs : Lindhard.EigSpec eig) (hs' : Lindhard.EigSpec eig') (tol beta mu : ℝ) (z : ℂ) :
    kToR (Lindhard.lindhard 2 eig' tol beta mu Finset.univ.toList (ring.up ringE) z) (fun _ => 1) true true false false
      = kToR (Lindhard.lindhard 1 eig tol beta mu Finset.univ.toList ringE z) (at' 1) () () () () := by
  have h := (C128_lindhard (c := ring) Nat.one_pos Nat.two_pos hs hs' tol beta mu all_full all_full ringE ringE_hermitian z).1 (fun _ => 1) true true
    false false rfl rfl
  have hv : ring.emb (fun _ => 1) + ring.pos false - ring.pos true = at' 1 := by
    funext i
    change double 1 + 0 - 1 = 1
    decide
  rw [hv] at h
  exact h

/-! ## The mean-field solvers -/

/-- the ring with two spins on every site, and with two sites in a cell -/
def spinRing : Cell Six Three (Fin 2) (Fin 4) where
  emb := ring.emb
  pos x := fun _ => if x.val < 2 then 0 else 1
  orb x := if x.val % 2 = 0 then 0 else 1
  bij := by
    have h : ∀ (a b : ZMod 3) (x y : Fin 4), double a + (if x.val < 2 then 0 else 1) = double b + (if y.val < 2 then 0 else 1) →
        (if x.val % 2 = 0 then (0 : Fin 2) else 1) = (if y.val % 2 = 0 then 0 else 1) → a = b ∧ x = y := by decide
    rw [Fintype.bijective_iff_injective_and_card]
    constructor
    · rintro ⟨R, x⟩ ⟨S, y⟩ hxy
      have h1 := h (R 0) (S 0) x y (congrFun (congrArg Prod.fst hxy) 0) (congrArg Prod.snd hxy)
      rw [Prod.mk.injEq]
      refine ⟨funext fun i => ?_, h1.2⟩
      rw [Subsingleton.elim i 0]
      exact h1.1
    · simp

theorem spinRing_atoms : Atoms spinRing ⊤ := by
  intro x b _
  have h : ∀ (x : Fin 4) (b : Fin 2), ∃ y : Fin 4, (if y.val % 2 = 0 then (0 : Fin 2) else 1) = b ∧
      (if y.val < 2 then (0 : ZMod 6) else 1) = if x.val < 2 then 0 else 1 := by decide
  obtain ⟨y, h1, h2⟩ := h x b
  exact ⟨y, h1, funext fun _ => h2⟩

/-- the repulsion of opposite spins -/
def hubbardU (u : ℝ) : Operators.T4 2 := fun a b c d => if a = b ∧ c = d ∧ a ≠ c then (-u : ℂ) else 0

/-- two spins on the ring -/
def spinE : Lat Six → Matrix (Fin 2) (Fin 2) ℂ := fun k => Matrix.diagonal fun _ => rToK hop k

theorem spin_hermitian (u : ℝ) (r : Fin 2 → ℝ) (k : Lat Six) :
    (spinE k + HartreeFock.meanField (hubbardU u) (Matrix.diagonal fun a => (r a : ℂ))).IsHermitian := by
  have hM : HartreeFock.meanField (hubbardU u) (Matrix.diagonal fun a => (r a : ℂ)) = Matrix.diagonal fun a => ((u * r (1 - a) : ℝ) : ℂ) := by
    ext b a
    simp only [HartreeFock.meanField, hubbardU, Fin.sum_univ_two, Matrix.diagonal_apply]
    fin_cases a <;> fin_cases b <;> simp
  have hE : (spinE k).IsHermitian := by
    rw [spinE, Matrix.IsHermitian, Matrix.diagonal_conjTranspose]
    congr 1
    funext a
    exact congrFun (congrFun (ringE_hermitian k) ()) ()
  refine hE.add ?_
  rw [hM, Matrix.IsHermitian, Matrix.diagonal_conjTranspose]
  congr 1
  funext a
  exact Complex.conj_ofReal _

/-- the mean-field problem with one site in a cell -/
def spinSmall (beta u : ℝ) (eig : Lindhard.Eig (Fin 2)) : HartreeFock.Params 2 (Lat Six) (Matrix (Fin 2) (Fin 2) ℂ) where
  beta := beta
  muMin := none
  muMax := none
  ek := spinE
  U := hubbardU u
  mat2vec := id
  vec2mat := id
  eigv := eig
  eig := eig
  brentq := fun _ _ _ => .error ""

/-- the mean-field problem with two sites in a cell -/
def spinLarge (beta u : ℝ) (eig : Lindhard.Eig (Fin 4)) : HartreeFock.Params 4 (Lat Three) (Matrix (Fin 4) (Fin 4) ℂ) where
  beta := beta
  muMin := none
  muMax := none
  ek := spinRing.up spinE
  U := place spinRing ⊤ (hubbardU u)
  mat2vec := id
  vec2mat := id
  eigv := eig
  eig := eig
  brentq := fun _ _ _ => .error ""

theorem spin_cell (beta u : ℝ) {eig : Lindhard.Eig (Fin 2)} {eig' : Lindhard.Eig (Fin 4)} (hs : Lindhard.EigSpec eig)
    (hs' : Lindhard.EigSpec eig') : CellHf spinRing ⊤ (spinSmall beta u eig) (spinLarge beta u eig') where
  atoms := spinRing_atoms
  beta := rfl
  ek := rfl
  U := rfl
  onsite := fun _ _ _ _ _ => ⟨trivial, trivial, trivial⟩
  eig := hs
  eig' := hs'
  eigv := hs
  eigv' := hs'

/-- a step of the mean-field iteration for the Hubbard model on the ring -/
example (beta u : ℝ) {eig : Lindhard.Eig (Fin 2)} {eig' : Lindhard.Eig (Fin 4)} (hs : Lindhard.EigSpec eig)
    (hs' : Lindhard.EigSpec eig') (st : HartreeFock.State 2 (Lat Six)) (st' : HartreeFock.State 4 (Lat Three)) (hmu : st'.mu = st.mu) (r : Fin 2 → ℝ) :
    ∃ s1 s1', HartreeFock.densityStep (spinSmall beta u eig) st (Matrix.diagonal fun a => (r a : ℂ)) none = .ok (s1, s1.rho) ∧
      HartreeFock.densityStep (spinLarge beta u eig') st' (Matrix.diagonal fun x => (r (spinRing.orb x) : ℂ)) none = .ok (s1', s1'.rho) ∧
      Agree spinRing ⊤ s1.rho s1'.rho := by
  have h1 : ∃ s1, HartreeFock.densityStep (spinSmall beta u eig) st (Matrix.diagonal fun a => (r a : ℂ)) none = .ok (s1, s1.rho) ∧ s1.mu = st.mu := by
    unfold HartreeFock.densityStep
    exact ⟨_, rfl, rfl⟩
  obtain ⟨s1, hs1, hm⟩ := h1
  have hA : Agree spinRing ⊤ (Matrix.diagonal fun a => (r a : ℂ)) (Matrix.diagonal fun x => (r (spinRing.orb x) : ℂ)) := by
    intro x y hn
    by_cases hxy : x = y
    · rw [hxy, Matrix.diagonal_apply_eq, Matrix.diagonal_apply_eq]
    · rw [Matrix.diagonal_apply_ne _ hxy, Matrix.diagonal_apply_ne _ fun ho => hxy (spinRing.inj (R := 0) (S := 0) (by rw [hn.1]) ho).2]
  obtain ⟨s1', h2, -, -, -, -, -, h3, -⟩ := C128_hf_step (spin_cell beta u hs hs') hs1 (spin_hermitian u r) st' (hmu.trans hm.symm) _ hA
  exact ⟨s1, s1', hs1, h2, h3⟩

/-- the solutions of the mean-field equation for the Hubbard model on the ring -/
example (beta mu u : ℝ) (r : Fin 2 → ℝ) (h : Subsystem.Solution (hubbardU u) beta mu spinE (Matrix.diagonal fun a => (r a : ℂ))) :
    ∃ rho', Agree spinRing ⊤ (Matrix.diagonal fun a => (r a : ℂ)) rho' ∧
      Subsystem.Solution (place spinRing ⊤ (hubbardU u)) beta mu (spinRing.up spinE) rho' :=
  (C128_hf_solutions spinRing_atoms (fun _ _ _ _ _ => ⟨trivial, trivial, trivial⟩) beta mu spinE _ (spin_hermitian u r)).1 h

/-! ## GW and the gap equation -/

/-- the dynamic self-energy with the interaction taken at the opposite momentum -/
example (w : ℤ) : UpOf ring
    (small.sigmaDyn (fun x => small.wDyn (small.screened false (small.polarization ringG)) (x.1, -x.2)) ringG w)
    (large.sigmaDyn (fun x => large.wDyn (large.screened false (large.polarization ringG')) (x.1, -x.2)) ringG' w) :=
  C128_gw_dynamic_partial ring_cellGw ring_upOf false ring_invertible w

/-- a pass of the GW solver with the Hartree part only -/
example : ∃ t t', small.sweep { fock := false, gw := false } 0 ringG = .ok t ∧ large.sweep { fock := false, gw := false } 0 ringG' = .ok t' ∧
    (∀ w, UpOf ring (t.sigma w) (t'.sigma w)) ∧ UpOf ring (t.g 0) (t'.g 0) := by
  have ok : ∀ {d : ℕ} {n : Fin d → ℕ} [∀ i, NeZero (n i)] {o : Type} [Fintype o] [DecidableEq o] (p : Gw.SolverParams n o) (g : Bubble.G n o) (_ : p.nFix = 0),
      ∃ t, p.sweep { fock := false, gw := false } 0 g = .ok t := by
    intro d n _ o _ _ p g hp
    unfold Gw.SolverParams.sweep Gw.SolverParams.dyson
    simp [hp]
  obtain ⟨t, ht⟩ := ok small ringG rfl
  obtain ⟨t', ht'⟩ := ok large ringG' rfl
  obtain ⟨a1, a2, -, -, -, -, a7, -⟩ := Gw.sweep_ok _ _ _ _ ht
  have hrho : small.rhoR ringG 0 = 0 := by
    unfold Gw.SolverParams.rhoR
    funext a b
    rw [Gw.rhoK_eq ring_cellGw.good, kToR_entry2]
    have h : (fun k => Gw.rhoSpec small ringG k a b) = rToK hop := rfl
    rw [h, kToR_rToK]
    unfold hop
    have h1 : ∀ j : ZMod 6, j ≠ 0 → ¬(0 : Lat Six) = at' j := fun j hj h => hj (congrFun h 0).symm
    rw [if_neg (h1 1 (by decide)), if_neg (h1 5 (by decide)), add_zero]
    rfl
  have hz : ∀ (f : Lat Six → Unit → Unit → ℂ), kToR f = 0 → f = 0 := fun f h => by
    rw [← rToK_kToR f, h]
    funext k a b
    simp [rToK, fftw]
  have hH : t.hartree = 0 := by
    rw [a1]
    refine hz _ ?_
    unfold Gw.SolverParams.sigmaHartree
    rw [kToR_rToK]
    unfold Gw.hartreeR
    rw [hrho]
    funext r
    by_cases hr : r = 0
    · rw [hr, Function.update_self]
      funext a b
      simp
    · rw [Function.update_of_ne hr]
      rfl
  obtain ⟨-, -, b1, -, -, -, -, b2⟩ := C128_gw_pass_partial ring_cellGw ring_upOf { fock := false, gw := false } rfl 0 ht ht' ring_invertible
    fun w hw k => by
      rw [a7, hH]
      obtain rfl : w = 0 := List.mem_singleton.1 hw
      rw [Matrix.det_eq_elem_of_subsingleton _ (), isUnit_iff_ne_zero]
      change (matsubara .fermion 1 0 + 0 + ((0 : ℝ) : ℂ)) * 1 - 0 - (0 + 0 + 0 : ℂ) ≠ 0
      unfold matsubara
      simp [Real.pi_ne_zero]
  exact ⟨t, t', ht, ht', b1, b2 0 (List.mem_singleton.2 rfl)⟩

/-- a vertex between neighbours with one site in a cell -/
def bondGamma : ℤ → Lat Six → Bubble.T4 Unit := fun _ k _ _ _ _ => rToK hop k

/-- a vertex between neighbours with two sites in a cell -/
def bondGamma' : ℤ → Lat Three → Bubble.T4 Bool := fun _ => rToK fun R z x u y =>
  if Near ring ⊤ z y ∧ Near ring ⊤ u x then hop (ring.emb R + ring.pos z - ring.pos u) else 0

/-- the gap equation with a vertex counted in the right direction -/
example : ∃ f f', Eliashberg.eliashbergProduct 1 1 1 3 1 Finset.univ.toList bondGamma ringOne ringGap = .ok f ∧
    Eliashberg.eliashbergProduct 2 1 1 3 1 Finset.univ.toList bondGamma' (fun w => ring.up fun k => Matrix.of (ringOne w k))
      (fun w => ring.neg.up fun k => Matrix.of (ringGap w k)) = .ok f' ∧ ∀ w, UpOf ring.neg (f w) (f' w) := by
  refine C128_eliashberg_partial ring_atoms Nat.one_pos Nat.two_pos le_rfl (by norm_num) 1 all_complete all_complete
    (fun _ _ _ _ _ _ _ => ⟨trivial, trivial⟩) (fun w K z x u y h => ?_) (fun w => upOf_iff.2 rfl) (fun w => upOf_iff.2 rfl)
    fun w R z x u y h1 h2 => ?_
  · by_contra hn
    refine h ?_
    unfold bondGamma'
    simp only [rToK, fftw, Finset.sum_apply, Pi.smul_apply]
    exact Finset.sum_eq_zero fun R _ => by rw [if_neg hn, smul_zero]
  · unfold bondGamma' bondGamma
    rw [kToR_rToK, kToR_entry4, if_pos ⟨h1, h2⟩]
    exact (congrFun (kToR_rToK hop) _).symm

end Verif.Supercell
