import Mathlib.Analysis.Normed.Ring.Finite
import Verif.Supercell.Eliashberg

/-!
# C128: a ring of six sites, with one and with two sites in a cell
-/

set_option linter.unusedSectionVars false

noncomputable section

namespace Verif.Supercell

open Verif.Fourier Verif.Parallel Verif.Bubble Verif.Gw Verif.Rpa Verif.Dyson Verif.Eliashberg Matrix Classical

/-- six cells with one site -/
abbrev Six : Fin 1 → ℕ := fun _ => 6

/-- three cells with two sites -/
abbrev Three : Fin 1 → ℕ := fun _ => 3

/-- the place of a cell with two sites -/
def double : ZMod 3 →+ ZMod 6 where
  toFun x := ((2 * x.val : ℕ) : ZMod 6)
  map_zero' := by decide
  map_add' := by decide

/-- the ring of six sites with two sites in a cell -/
def ring : Cell Six Three Unit Bool where
  emb := {
    toFun := fun R i => double (R i)
    map_zero' := funext fun _ => map_zero double
    map_add' := fun R S => funext fun _ => map_add double _ _ }
  pos x := fun _ => if x then 1 else 0
  orb _ := ()
  bij := by
    have h : ∀ (a b : ZMod 3) (x y : Bool), double a + (if x then 1 else 0) = double b + (if y then 1 else 0) → a = b ∧ x = y := by decide
    rw [Fintype.bijective_iff_injective_and_card]
    constructor
    · rintro ⟨R, x⟩ ⟨S, y⟩ hxy
      have h1 := h (R 0) (S 0) x y (congrFun (congrArg Prod.fst hxy) 0)
      rw [Prod.mk.injEq]
      refine ⟨funext fun i => ?_, h1.2⟩
      rw [Subsingleton.elim i 0]
      exact h1.1
    · simp

theorem ring_atoms : Atoms ring ⊤ := fun x _ _ => ⟨x, rfl, rfl⟩

theorem ring_near (x y : Bool) : Near ring ⊤ x y ↔ x = y := by
  constructor
  · intro h
    have key : ∀ x y : Bool, (if x then (1 : ZMod 6) else 0) = (if y then 1 else 0) → x = y := by decide
    exact key x y (congrFun h.1 0)
  · rintro rfl
    exact Near.refl x

/-- a site of the ring -/
def at' (j : ZMod 6) : Lat Six := fun _ => j

theorem at'_sub (i j : ZMod 6) : at' i - at' j = at' (i - j) := rfl
theorem at'_add (i j : ZMod 6) : at' i + at' j = at' (i + j) := rfl

theorem at'_inj {i j : ZMod 6} (h : at' i = at' j) : i = j := congrFun h 0

theorem not_zero {j : ZMod 6} (hj : j ≠ 0) : ¬at' j = 0 := fun h => hj (congrFun h 0)

theorem norm_ker {d : ℕ} {n : Fin d → ℕ} [∀ i, NeZero (n i)] (x y : Lat n) : ‖ker x y‖ = 1 := by
  rw [ker, norm_prod]
  exact Finset.prod_eq_one fun i _ => AddChar.norm_apply _ _

theorem rToK_at {d : ℕ} {n : Fin d → ℕ} [∀ i, NeZero (n i)] (x : Lat n) (v : ℂ) (k : Lat n) :
    rToK (fun r => if r = x then v else 0) k = ker x k * v := by
  rw [rToK, fftw_one, Finset.sum_eq_single x]
  · rw [if_pos rfl, smul_eq_mul]
  · intro r _ hr
    rw [if_neg hr, smul_zero]
  · intro h
    exact absurd (Finset.mem_univ _) h

theorem kToR_shift {d : ℕ} {n : Fin d → ℕ} [∀ i, NeZero (n i)] (x : Lat n) (f : Lat n → ℂ) (r : Lat n) :
    kToR (fun k => ker x k * f k) r = kToR f (r - x) := by
  rw [kToR_lin, kToR_lin]
  refine Finset.sum_congr rfl fun k _ => ?_
  rw [smul_eq_mul, smul_eq_mul, sub_eq_add_neg, ker_add_right, ker_neg_neg, ker_comm k x]
  ring

/-! ## GW -/

/-- external pieces that take a function to its value at the first point of the mesh -/
def firstPieces : Pieces where
  gToTau x _ := x 0
  wToTau x _ := x 0
  toFreq x _ := x 0
  tail0 x := x 0
  dens x := x 0
  ntau nw := 6 * nw + 1

/-- the interaction of two electrons on a site -/
def unitU : Bubble.T4 Unit := fun _ _ _ _ => 1

/-- the ring with one site in a cell -/
def small : SolverParams Six Unit where
  ranks := 1
  lat := Finset.univ.toList
  freqs := [0]
  bfreqs := [0]
  nw := 2
  beta := 1
  L := 0
  val := fun m => matsubara .fermion 1 m
  pieces := firstPieces
  boseFreq := fun x _ => x 0
  e := fun _ => 0
  V := fun _ => unitU
  nFix := 0
  bracket := (-1, 1)
  brentq := fun _ _ _ => .ok 0

/-- the ring with two sites in a cell -/
def large : SolverParams Three Bool where
  ranks := 2
  lat := Finset.univ.toList
  freqs := [0]
  bfreqs := [0]
  nw := 2
  beta := 1
  L := 0
  val := fun m => matsubara .fermion 1 m
  pieces := firstPieces
  boseFreq := fun x _ => x 0
  e := ring.up fun _ => 0
  V := fun _ => place ring ⊤ unitU
  nFix := 0
  bracket := (-1, 1)
  brentq := fun _ _ _ => .ok 0

theorem all_complete {d : ℕ} {n : Fin d → ℕ} [∀ i, NeZero (n i)] : Gw.Complete (Finset.univ : Finset (Lat n)).toList :=
  ⟨Finset.nodup_toList _, fun k => Finset.mem_toList.2 (Finset.mem_univ k)⟩

theorem ring_onsite : Onsite (⊤ : Setoid Unit) unitU := fun _ _ _ _ _ => ⟨trivial, trivial, trivial⟩

theorem ring_cellGw : CellGw ring ⊤ unitU small large where
  atoms := ring_atoms
  onsite := ring_onsite
  good := ⟨Nat.one_pos, all_complete, List.nodup_singleton _, List.nodup_singleton _⟩
  good' := ⟨Nat.two_pos, all_complete, List.nodup_singleton _, List.nodup_singleton _⟩
  freqs := rfl
  bfreqs := rfl
  nw := rfl
  L := rfl
  beta := rfl
  val := rfl
  pieces := rfl
  boseFreq := rfl
  e := rfl
  V := rfl
  V' := rfl
  nFix := rfl
  nFix' := rfl
  dens := ⟨LinearMap.proj 0, rfl⟩
  wToTau := fun _ => rfl
  toFreq := fun _ => rfl

/-- amplitude to be found on the site or on a neighbour -/
def hop : Lat Six → ℂ := fun r => (if r = at' 1 then 1 / 2 else 0) + if r = at' 5 then 1 / 2 else 0

/-- a Green's function that reaches the neighbours -/
def ringG : G Six Unit := fun _ k _ _ => rToK hop k

/-- the same with two sites in a cell -/
def ringG' : G Three Bool := fun w => ring.up fun k => Matrix.of (ringG w k)

theorem ring_upOf (w : ℤ) : UpOf ring (ringG w) (ringG' w) := upOf_iff.2 rfl

theorem ring_time (t : ℕ) (r : Lat Six) (a b : Unit) : gTimeSpace small ringG t r a b = hop r := by
  change kToR (fun k => rToK hop k) r = hop r
  exact congrFun (kToR_rToK hop) r

theorem neg_one_five : -at' 1 = at' 5 := rfl
theorem neg_five_one : -at' 5 = at' 1 := rfl

theorem hop_sq (r : Lat Six) : hop r * hop (-r) = (if r = at' 1 then 1 / 4 else 0) + if r = at' 5 then 1 / 4 else 0 := by
  unfold hop
  have h1 : (-r = at' 1) ↔ r = at' 5 := by rw [← neg_one_five, neg_eq_iff_eq_neg]
  have h5 : (-r = at' 5) ↔ r = at' 1 := by rw [← neg_five_one, neg_eq_iff_eq_neg]
  have hne : at' 1 ≠ at' 5 := fun h => absurd (at'_inj h) (by decide)
  by_cases ha : r = at' 1
  · have hb : r ≠ at' 5 := ha ▸ hne
    rw [if_pos ha, if_neg hb, if_neg (fun h => hb (h1.1 h)), if_pos (h5.2 ha), if_pos ha, if_neg hb]
    norm_num
  · by_cases hb : r = at' 5
    · rw [if_neg ha, if_pos hb, if_pos (h1.2 hb), if_neg (fun h => ha (h5.1 h)), if_neg ha, if_pos hb]
      norm_num
    · rw [if_neg ha, if_neg hb, if_neg ha, if_neg hb]
      norm_num

theorem rToK_add' (f g : Lat Six → ℂ) (k : Lat Six) : rToK (fun r => f r + g r) k = rToK f k + rToK g k := by
  simp only [rToK, fftw_one, smul_add, Finset.sum_add_distrib]

/-- the polarisation in momentum space -/
def ringP (k : Lat Six) : ℂ := -(ker (at' 1) k * (1 / 4) + ker (at' 5) k * (1 / 4))

theorem ring_pol (w : ℤ) (k : Lat Six) (a b c e : Unit) : small.polarization ringG w k a b c e = ringP k := by
  rw [polarization_eq ring_cellGw.good (by decide : small.nw ≠ 1)]
  unfold polSpec ringP
  simp only [ring_time]
  change -rToK (fun r => hop r * hop (-r)) k = _
  simp only [hop_sq]
  rw [rToK_add', rToK_at, rToK_at]

theorem ringP_norm (k : Lat Six) : ‖ringP k‖ ≤ 1 / 2 := by
  unfold ringP
  rw [norm_neg]
  refine (norm_add_le _ _).trans ?_
  rw [norm_mul, norm_mul, norm_ker, norm_ker]
  norm_num

theorem ringP_ne (k : Lat Six) : 1 - ringP k ≠ 0 := by
  intro h
  have h1 := ringP_norm k
  rw [← sub_eq_zero.1 h, norm_one] at h1
  norm_num at h1

theorem ring_invertible : Invertible' false small ringG := by
  intro w k
  have e : (1 - pairMat ((if false then (2 : ℂ) else 1) • small.polarization ringG w k) * pairMat (small.V k)).det = 1 - ringP k := by
    rw [Matrix.det_eq_elem_of_subsingleton _ ((), ()), Matrix.sub_apply, Matrix.one_apply_eq, Matrix.mul_apply, Fintype.sum_subsingleton _ ((), ())]
    change 1 - ((1 : ℂ) * small.polarization ringG w k () () () ()) * 1 = _
    rw [ring_pol, mul_one, one_mul]
  rw [e]
  exact isUnit_iff_ne_zero.2 (ringP_ne k)

/-- the screened interaction, as a function of the distance -/
def ringW (j : ZMod 6) : ℂ := kToR (fun k => small.screened false (small.polarization ringG) (0, k) () () () ()) (at' j)

theorem ringW_eq (j : ZMod 6) : ringW j = (if j = 0 then 1 else 0) - 1 / 4 * (ringW (j - 1) + ringW (j - 5)) := by
  have h1 : ∀ k, small.screened false (small.polarization ringG) (0, k) () () () ()
      = 1 + ringP k * small.screened false (small.polarization ringG) (0, k) () () () () := by
    intro k
    have h := screened_solves ring_cellGw.good false (small.polarization ringG) 0 (List.mem_singleton.2 rfl) k (ring_invertible 0 k) () () () ()
    refine h.trans ?_
    simp only [Finset.univ_unique, Finset.sum_singleton]
    change (1 : ℂ) + 1 * ((1 : ℂ) * small.polarization ringG 0 k _ _ _ _) * _ = _
    rw [ring_pol, one_mul, one_mul]
  set S : Lat Six → ℂ := fun k => small.screened false (small.polarization ringG) (0, k) () () () () with hS
  have h2 : S = fun k => (1 : ℂ) + ((-(1 / 4) : ℂ) • (ker (at' 1) k * S k) + (-(1 / 4) : ℂ) • (ker (at' 5) k * S k)) := by
    funext k
    refine (h1 k).trans ?_
    unfold ringP
    change 1 + _ * S k = _
    rw [smul_eq_mul, smul_eq_mul]
    ring
  have hone : kToR (fun _ : Lat Six => (1 : ℂ)) (at' j) = if j = 0 then 1 else 0 := by
    have := kToR_const4 (n := Six) unitU (at' j) () () () ()
    rw [kToR_entry4] at this
    refine this.trans ?_
    by_cases hj : j = 0
    · rw [if_pos hj, hj, if_pos (show at' 0 = 0 from rfl)]; rfl
    · rw [if_neg hj, if_neg (not_zero hj)]
  unfold ringW
  change kToR S (at' j) = _ - 1 / 4 * (kToR S (at' (j - 1)) + kToR S (at' (j - 5)))
  have h3 : kToR S (at' j) = kToR (fun k => (1 : ℂ) + ((-(1 / 4) : ℂ) • (ker (at' 1) k * S k) + (-(1 / 4) : ℂ) • (ker (at' 5) k * S k))) (at' j) :=
    congrArg (fun f => kToR f (at' j)) h2
  rw [h3]
  have a1 := congrFun (Cell.kToR_add' (fun _ : Lat Six => (1 : ℂ)) fun k =>
    ((-(1 / 4) : ℂ) • (ker (at' 1) k * S k) + (-(1 / 4) : ℂ) • (ker (at' 5) k * S k))) (at' j)
  have a2 := congrFun (Cell.kToR_add' (fun k => (-(1 / 4) : ℂ) • (ker (at' 1) k * S k)) fun k => (-(1 / 4) : ℂ) • (ker (at' 5) k * S k)) (at' j)
  have a3 := congrFun (Cell.kToR_smul' (-(1 / 4) : ℂ) fun k => ker (at' 1) k * S k) (at' j)
  have a4 := congrFun (Cell.kToR_smul' (-(1 / 4) : ℂ) fun k => ker (at' 5) k * S k) (at' j)
  refine a1.trans ?_
  rw [hone, a2, a3, a4, kToR_shift, kToR_shift, at'_sub, at'_sub, smul_eq_mul, smul_eq_mul]
  ring

/-- the interaction with the neighbour is not the one at distance three -/
theorem ringW_ne : ringW 3 ≠ ringW 1 := by
  intro h
  have e0 := ringW_eq 0
  have e4 := ringW_eq 4
  have e1 := ringW_eq 1
  have e3 := ringW_eq 3
  rw [if_pos rfl, show (0 : ZMod 6) - 1 = 5 from rfl, show (0 : ZMod 6) - 5 = 1 from rfl] at e0
  rw [if_neg (by decide), show (4 : ZMod 6) - 1 = 3 from rfl, show (4 : ZMod 6) - 5 = 5 from rfl] at e4
  rw [if_neg (by decide), show (1 : ZMod 6) - 1 = 0 from rfl, show (1 : ZMod 6) - 5 = 2 from rfl] at e1
  rw [if_neg (by decide), show (3 : ZMod 6) - 1 = 2 from rfl, show (3 : ZMod 6) - 5 = 4 from rfl] at e3
  have h04 : ringW 0 = ringW 4 := by linear_combination 4 * h - 4 * (e3 - e1)
  exact one_ne_zero (α := ℂ) (by linear_combination h04 - e0 + e4 - 1 / 4 * h)

theorem ring_wDyn (j : ZMod 6) (hj : j ≠ 0) :
    kToR (fun k => small.wDyn (small.screened false (small.polarization ringG)) (0, k)) (at' j) () () () () = ringW j := by
  rw [kToR_entry4]
  simp only [wDyn_eq ring_cellGw.good]
  have e : ∀ k : Lat Six, (if (0 : ℤ) ∈ small.bfreqs then small.screened false (small.polarization ringG) (0, k) - small.V k
      else small.screened false (small.polarization ringG) (0, k)) () () () ()
      = small.screened false (small.polarization ringG) (0, k) () () () () + (-1 : ℂ) • (1 : ℂ) := fun k => by
    rw [if_pos (show (0 : ℤ) ∈ small.bfreqs from List.mem_singleton.2 rfl)]
    change _ - (1 : ℂ) = _
    rw [smul_eq_mul]
    ring
  simp only [e]
  have a1 := congrFun (Cell.kToR_add' (fun k : Lat Six => small.screened false (small.polarization ringG) (0, k) () () () ()) fun _ => (-1 : ℂ) • (1 : ℂ))
    (at' j)
  refine a1.trans ?_
  have a2 := congrFun (Cell.kToR_smul' (-1 : ℂ) fun _ : Lat Six => (1 : ℂ)) (at' j)
  rw [a2]
  have := kToR_const4 (n := Six) unitU (at' j) () () () ()
  rw [kToR_entry4, if_neg (not_zero hj)] at this
  rw [show kToR (fun _ : Lat Six => (1 : ℂ)) (at' j) = 0 from this, smul_zero, add_zero]
  rfl

/-- C128, violated: one pass of the GW solver, with the default switches, for the Hubbard interaction on a ring. With one and with
two sites in a cell all that is given is the same, yet the self-energy between neighbours that sit in different cells is not. -/
theorem C128_gw_violated : ∃ (p : SolverParams Six Unit) (p' : SolverParams Three Bool) (g : G Six Unit) (g' : G Three Bool)
    (t : Sweep Six Unit) (t' : Sweep Three Bool), CellGw ring ⊤ unitU p p' ∧ (∀ w, UpOf ring (g w) (g' w)) ∧ Invertible' false p g ∧
      p.sweep {} 0 g = .ok t ∧ p'.sweep {} 0 g' = .ok t' ∧ UpOf ring t.hartree t'.hartree ∧ UpOf ring t.fock t'.fock ∧
      ¬UpOf ring (t.sigma 0) (t'.sigma 0) := by
  have ok : ∀ {d : ℕ} {n : Fin d → ℕ} [∀ i, NeZero (n i)] {o : Type} [Fintype o] [DecidableEq o] (p : SolverParams n o) (g : G n o) (_ : p.nFix = 0),
      ∃ t, p.sweep {} 0 g = .ok t := by
    intro d n _ o _ _ p g hp
    unfold SolverParams.sweep SolverParams.dyson
    simp [hp]
  obtain ⟨t, ht⟩ := ok small ringG rfl
  obtain ⟨t', ht'⟩ := ok large ringG' rfl
  obtain ⟨a1, a2, a3, a4, a5, a6, a7, -⟩ := sweep_ok _ _ _ _ ht
  obtain ⟨b1, b2, b3, b4, b5, b6, b7, -⟩ := sweep_ok _ _ _ _ ht'
  have hH : UpOf ring t.hartree t'.hartree := by rw [a1, b1]; exact hartree_cell ring_cellGw ring_upOf
  have hF : UpOf ring t.fock t'.fock := by rw [a2, b2]; exact fock_cell ring_cellGw ring_upOf
  refine ⟨small, large, ringG, ringG', t, t', ring_cellGw, ring_upOf, ring_invertible, ht, ht', hH, hF, fun hS => ?_⟩
  have x1 : t.sigma 0 = fun k => (t.hartree k + t.fock k) + t.dyn 0 k := funext fun k => a7 0 k
  have x2 : t'.sigma 0 = fun k => (t'.hartree k + t'.fock k) + t'.dyn 0 k := funext fun k => b7 0 k
  have h := hS (fun _ => 1) false true
  have s1 := fun r => congrFun (Cell.kToR_add' (fun k => t.hartree k + t.fock k) (t.dyn 0)) r
  have s2 := fun r => congrFun (Cell.kToR_add' (fun k => t'.hartree k + t'.fock k) (t'.dyn 0)) r
  rw [x1, x2, s1, s2] at h
  have h2 := (hH.add hF) (fun _ => 1) false true
  have h3 : kToR (t'.dyn 0) (fun _ => 1) false true = kToR (t.dyn 0) (ring.emb (fun _ => 1) + ring.pos false - ring.pos true) () () := by
    refine add_left_cancel (a := kToR (fun k => t'.hartree k + t'.fock k) (fun _ => 1) false true) ?_
    refine Eq.trans h ?_
    rw [h2]
    rfl
  have hd := C128_gw_dynamic_actual ring_cellGw ring_upOf false ring_invertible (fun _ => 1) false true 0
  have hv1 : ring.emb (fun _ => 1) + ring.pos false - ring.pos true = at' 1 := by
    funext i
    change double 1 + 0 - 1 = 1
    decide
  have hv3 : ring.emb (fun _ => 1) + ring.pos true - ring.pos false = at' 3 := by
    funext i
    change double 1 + 1 - 0 = 3
    decide
  rw [a6, b6, a5, b5, a4, b4, a3, b3] at h3
  rw [dyn_old ring_cellGw] at h3
  have h4 := hd.symm.trans h3
  rw [hv1, hv3] at h4
  simp only [ring_time] at h4
  have h5 : (∑ a : Unit, ∑ b : Unit, -kToR (fun k => small.wDyn (small.screened false (small.polarization ringG)) (0, k)) (at' 3) () a b () * hop (at' 1))
      = ∑ a : Unit, ∑ b : Unit, -kToR (fun k => small.wDyn (small.screened false (small.polarization ringG)) (0, k)) (at' 1) () a b () * hop (at' 1) := h4
  simp only [Finset.univ_unique, Finset.sum_singleton] at h5
  have h6 : -ringW 3 * hop (at' 1) = -ringW 1 * hop (at' 1) := by
    rw [← ring_wDyn 3 (by decide), ← ring_wDyn 1 (by decide)]
    exact h5
  have hh : hop (at' 1) = 1 / 2 := by
    unfold hop
    rw [if_pos rfl, if_neg fun h => absurd (at'_inj h) (by decide), add_zero]
  rw [hh] at h6
  exact ringW_ne (by linear_combination (-2) * h6)

/-! ## The gap equation with the vertex of the random phase approximation -/

/-- a susceptibility between neighbours -/
def ringChi : Lat Six → Bubble.T4 Unit := fun k _ _ _ _ => rToK hop k

/-- the singlet vertex with one site in a cell -/
def ringGamma : ℤ → Lat Six → Bubble.T4 Unit := fun _ k => gammaSinglet unitU unitU (phiPoint (ringChi k) unitU) (phiPoint (ringChi k) unitU)

/-- the singlet vertex with two sites in a cell -/
def ringGamma' : ℤ → Lat Three → Bubble.T4 Bool := fun _ K => gammaSinglet (place ring ⊤ unitU) (place ring ⊤ unitU)
  (phiPoint (spread ring ⊤ ringChi K) (place ring ⊤ unitU)) (phiPoint (spread ring ⊤ ringChi K) (place ring ⊤ unitU))

theorem ring_phi (k : Lat Six) : phiPoint (ringChi k) unitU = ringChi k := by
  funext a b e f
  change (pairMat unitU * pairMat (ringChi k) * pairMat unitU) (a, b) (e, f) = _
  rw [Matrix.mul_apply, Fintype.sum_subsingleton _ ((), ()), Matrix.mul_apply, Fintype.sum_subsingleton _ ((), ())]
  change 1 * _ * 1 = _
  rw [one_mul, mul_one]
  rfl

theorem ring_gamma (w : ℤ) (j : ZMod 6) (hj : j ≠ 0) (a b e f : Unit) : kToR (ringGamma w) (at' j) a b e f = 4 * (starRingEnd ℂ) (hop (-at' j)) := by
  unfold ringGamma
  simp only [singlet_ladder, ring_phi]
  rw [kToR_ladder, kToR_const4, if_neg (not_zero hj)]
  have h : kToR (fun k => ringChi k) (-at' j) e b a f = hop (-at' j) := by
    rw [kToR_entry4]
    exact congrFun (kToR_rToK hop) _
  rw [h]
  change 3 * _ + 1 * _ + (1 / 2 * (0 : ℂ) + 3 / 2 * 0) = _
  ring

/-- one electron that stays where it is -/
def ringOne : ℤ → Lat Six → Unit → Unit → ℂ := fun _ _ _ _ => 1

/-- a gap between neighbours -/
def ringGap : ℤ → Lat Six → Unit → Unit → ℂ := fun _ k _ _ => rToK hop k

theorem ring_pairF (w : ℤ) (r : Lat Six) (a b : Unit) : kToR (pairF ringOne ringGap w) r a b = hop r := by
  rw [kToR_entry2]
  have h : (fun k => pairF ringOne ringGap w k a b) = rToK hop := by
    funext k
    change (∑ e, ∑ f, ringOne w k b f * (starRingEnd ℂ) (ringOne w (-k) e a) * ringGap w k e f) = _
    simp only [Finset.univ_unique, Finset.sum_singleton]
    change 1 * (starRingEnd ℂ) 1 * rToK hop k = _
    rw [map_one, one_mul, one_mul]
  rw [h]
  exact congrFun (kToR_rToK hop) r

/-- C128, violated: the product of the Eliashberg equation with the singlet vertex of the random phase approximation, on a ring.
Susceptibility, interaction, Green's function and gap are the same with one and with two sites in a cell, the product is not. -/
theorem C128_eliashberg_violated : ∃ (chi : Lat Six → Bubble.T4 Unit) (chi' : Lat Three → Bubble.T4 Bool) (U : Bubble.T4 Unit)
    (g delta : ℤ → Lat Six → Unit → Unit → ℂ) (g' delta' : ℤ → Lat Three → Bool → Bool → ℂ)
    (f : ℤ → Lat Six → Unit → Unit → ℂ) (f' : ℤ → Lat Three → Bool → Bool → ℂ), Onsite ⊤ U ∧ PairOf ring ⊤ chi chi' ∧
      (∀ w, UpOf ring (g w) (g' w)) ∧ (∀ w, UpOf ring.neg (delta w) (delta' w)) ∧
      eliashbergProduct 1 1 1 3 1 Finset.univ.toList (fun _ k => gammaSinglet U U (phiPoint (chi k) U) (phiPoint (chi k) U)) g delta = .ok f ∧
      eliashbergProduct 1 1 1 3 1 Finset.univ.toList (fun _ K => gammaSinglet (place ring ⊤ U) (place ring ⊤ U) (phiPoint (chi' K) (place ring ⊤ U))
        (phiPoint (chi' K) (place ring ⊤ U))) g' delta' = .ok f' ∧ ¬UpOf ring.neg (f 0) (f' 0) := by
  have hg : ∀ w, UpOf ring (ringOne w) (ring.up fun k => Matrix.of (ringOne w k)) := fun w => upOf_iff.2 rfl
  have hd : ∀ w, UpOf ring.neg (ringGap w) (ring.neg.up fun k => Matrix.of (ringGap w k)) := fun w => upOf_iff.2 rfl
  refine ⟨ringChi, spread ring ⊤ ringChi, unitU, ringOne, ringGap, fun w => ring.up fun k => Matrix.of (ringOne w k),
    fun w => ring.neg.up fun k => Matrix.of (ringGap w k), _, _, ring_onsite, spread_pairOf _, hg, hd,
    eliashbergProduct_ok Nat.one_pos le_rfl (by norm_num) 1 all_complete ringGamma _ _,
    eliashbergProduct_ok Nat.one_pos le_rfl (by norm_num) 1 all_complete ringGamma' _ _, fun h => ?_⟩
  obtain ⟨v1, v2, v3⟩ := C128_vertex_actual ring_atoms ring_onsite ring_onsite (spread_pairOf (c := ring) (s := ⊤) ringChi)
    (spread_pairOf (c := ring) (s := ⊤) ringChi) (fun {o} _ _ => gammaSinglet) (.inl rfl)
  have hnew := product_core (gamma := ringGamma) (gamma' := ringGamma') ring_atoms 1 1 (fun _ => v2) (fun _ => v3) hg hd (fun _ => 1) true false (at' 3)
    (fun w z u hz hu => by
      have := v1 (fun _ => 1) z true u false hz.symm hu.symm
      refine this.trans ?_
      rw [← hz.1, ← hu.1]
      have hv3 : ring.emb (fun _ => 1) + ring.pos true - ring.pos false = at' 3 := by
        funext i
        change double 1 + 1 - 0 = 3
        decide
      rw [hv3]
      rfl) 0
  have hold := h (fun _ => 1) true false
  have hv1 : ring.neg.emb (fun _ => 1) + ring.neg.pos true - ring.neg.pos false = at' 1 := by
    funext i
    change double 1 + -1 - -0 = 1
    decide
  rw [hv1, kToR_sumValue 1 1 ringGamma] at hold
  have hE := hnew.symm.trans hold
  have hw : window 1 = {-1, 0} := by decide
  have h1 : hop (at' 1) = 1 / 2 := by
    unfold hop
    rw [if_pos rfl, if_neg fun h => absurd (at'_inj h) (by decide), add_zero]
  have h5 : hop (-at' 1) = 1 / 2 := by
    rw [neg_one_five]
    unfold hop
    rw [if_neg fun h => absurd (at'_inj h) (by decide), if_pos rfl, zero_add]
  have h3 : hop (-at' 3) = 0 := by
    rw [show -at' 3 = at' 3 from rfl]
    unfold hop
    rw [if_neg fun h => absurd (at'_inj h) (by decide), if_neg fun h => absurd (at'_inj h) (by decide), add_zero]
  have hF : ring.emb (fun _ => 1) + ring.pos false - ring.pos true = at' 1 := by
    funext i
    change double 1 + 0 - 1 = 1
    decide
  rw [hF, hw, Finset.sum_pair (by decide), Finset.sum_pair (by decide)] at hE
  unfold gammaF at hE
  simp only [Finset.univ_unique, Finset.sum_singleton] at hE
  rw [ring_gamma _ _ (by decide), ring_gamma _ _ (by decide), ring_gamma _ _ (by decide), ring_gamma _ _ (by decide), ring_pairF, ring_pairF,
    h1, h3, h5] at hE
  norm_num [Complex.conj_ofNat] at hE

end Verif.Supercell
