import Verif.Herm.Lemmas
import Verif.Rpa.Props
import Verif.Gw.Props
import Verif.HartreeFock.Props

/-!
# C113: hermitian symmetry

Correlation functions of hermitian operators in a hermitian Hamiltonian obey `G(-iν)_{ab} = conj G(iν)_{ba}` and
`χ(-iω)_{abcd} = conj χ(iω)_{dcba}`.  The Green's function is C74;  here are the two-particle routines and the self
energies.  `conj p` stands for the mesh point with the opposite frequency, `cn` for the map of fermionic frequencies.
-/

noncomputable section

namespace Verif.Herm

set_option linter.unusedSectionVars false

open Complex Matrix Verif.Parallel Verif.Fourier Verif.Bubble Verif.Gw Verif.Lindhard

variable {dm : ℕ} {n : Fin dm → ℕ} [∀ i, NeZero (n i)] {o : Type*} [Fintype o] [DecidableEq o]

/-! ## Lattice transforms -/

theorem conj_rToK (f : Lat n → ℂ) (k : Lat n) :
    (starRingEnd ℂ) (rToK f k) = rToK (fun r => (starRingEnd ℂ) (f (-r))) k := by
  have hk : ∀ x y : Lat n, (starRingEnd ℂ) (ker x y) = ker (-x) y := by
    intro x y
    rw [← exp_eq_ker, ← exp_neg_eq_ker, ← exp_conj]
    congr 1
    simp only [map_mul, map_sum, map_div₀, conj_ofReal, conj_I, Complex.conj_natCast, Complex.conj_ofNat]
    push_cast
    ring
  simp only [rToK, fftw_one, smul_eq_mul, map_mul, map_sum, hk]
  rw [← Equiv.sum_comp (Equiv.neg (Lat n)) (fun x => ker (-x) k * (starRingEnd ℂ) (f x))]
  simp

theorem rToK_apply4 (f : Lat n → Bubble.T4 o) (k : Lat n) (a b c d : o) :
    rToK f k a b c d = rToK (fun r => f r a b c d) k := by
  simp [rToK, fftw, Finset.sum_apply]

/-! ## Bubbles -/

/-- C113: the bubble `chi0_n_from_g_wk_PH` of a Green's function with `G(-iν, k) = G(iν, k)†`. -/
theorem C113_bubble (beta : ℝ) (g : G n o) (hg : ∀ m k a b, g (-m - 1) k a b = (starRingEnd ℂ) (g m k b a))
    (w : ℤ) (q : Lat n) (nu : ℤ) (a b c d : o) :
    chi0nFromGwk beta g (-w) q (-nu - 1) a b c d = (starRingEnd ℂ) (chi0nFromGwk beta g w q nu d c b a) := by
  simp only [chi0nFromGwk, map_mul, map_sum, map_neg, map_div₀, conj_ofReal, Complex.conj_natCast]
  congr 1
  refine Finset.sum_congr rfl fun k _ => ?_
  have e : -nu - 1 + -w = -(nu + w) - 1 := by ring
  rw [hg, e, hg]

/-- C113: the same for the route through real space, on meshes which contain the opposite frequencies. -/
theorem C113_bubble_route (r1 r2 r3 : ℕ) (h1 : 0 < r1) (h2 : 0 < r2) (h3 : 0 < r3) (beta : ℝ)
    (numesh : List ℤ) (hnu : numesh.Nodup) (hsym : ∀ m ∈ numesh, -m - 1 ∈ numesh) (rmesh : List (Lat n))
    (hr : rmesh.Nodup) (hrall : ∀ r, r ∈ rmesh) (wn : List (ℤ × ℤ)) (hwn : wn.Nodup)
    (hwsym : ∀ p ∈ wn, (-p.1, -p.2 - 1) ∈ wn) (g : G n o)
    (hg : ∀ m k a b, g (-m - 1) k a b = (starRingEnd ℂ) (g m k b a)) (w nu : ℤ) (hp : (w, nu) ∈ wn)
    (hin : nu ∈ numesh) (hin' : nu + w ∈ numesh) (q : Lat n) (a b c d : o) :
    chi0qFromChi0r r3 wn (chi0rFromGr r2 beta rmesh (fourierWkToWr r1 numesh g)) (-w, -nu - 1) q a b c d
      = (starRingEnd ℂ) (chi0qFromChi0r r3 wn (chi0rFromGr r2 beta rmesh (fourierWkToWr r1 numesh g)) (w, nu) q d c b a) := by
  have e : -nu - 1 + -w = -(nu + w) - 1 := by ring
  rw [C07_real_space_bubble r1 r2 r3 h1 h2 h3 beta numesh hnu rmesh hr hrall wn hwn g w nu hp hin hin' q,
    C07_real_space_bubble r1 r2 r3 h1 h2 h3 beta numesh hnu rmesh hr hrall wn hwn g (-w) (-nu - 1) (hwsym _ hp)
      (hsym _ hin) (e ▸ hsym _ hin') q, C113_bubble beta g hg]

/-- C113: the imaginary time bubble, in real space and in momentum space, and its static value. -/
theorem C113_bubble_tau {ranks : ℕ} (hr : 0 < ranks) (L : ℕ) {rmesh : List (Lat n)} (hc : Complete rmesh) (beta : ℝ)
    (g : ℕ → Lat n → o → o → ℂ) (hg : ∀ t r a b, g t (-r) a b = (starRingEnd ℂ) (g t r b a)) :
    (∀ r t a b c d, chi0tr ranks L rmesh g (-r) t a b c d = (starRingEnd ℂ) (chi0tr ranks L rmesh g r t d c b a)) ∧
    (∀ t q a b c d, rToK (fun r => chi0tr ranks L rmesh g r t) q a b c d
      = (starRingEnd ℂ) (rToK (fun r => chi0tr ranks L rmesh g r t) q d c b a)) ∧
    ∀ q a b c d, rToK (chi0W0r ranks beta L rmesh g) q a b c d
      = (starRingEnd ℂ) (rToK (chi0W0r ranks beta L rmesh g) q d c b a) := by
  have key : ∀ r t a b c d, chi0tPoint L g (-r) t a b c d = (starRingEnd ℂ) (chi0tPoint L g r t d c b a) := by
    intro r t a b c d
    simp only [chi0tPoint, map_mul, neg_neg]
    rw [hg, ← hg (L - t) (-r) b c, neg_neg]
  refine ⟨fun r t a b c d => ?_, fun t q a b c d => ?_, fun q a b c d => ?_⟩
  · rw [chi0tr, hc.assign hr]
    exact key r t a b c d
  · rw [rToK_apply4, rToK_apply4, conj_rToK]
    congr 1
    funext r
    rw [chi0tr, hc.assign hr, ← key, neg_neg]
  · rw [rToK_apply4, rToK_apply4, conj_rToK]
    congr 1
    funext r
    rw [chi0W0r, hc.assign hr]
    simp only [trapz, Pi.smul_apply, Pi.sub_apply, Finset.sum_apply, smul_eq_mul, map_mul, map_sub, map_sum, map_div₀,
      conj_ofReal, Complex.conj_natCast, map_one, Complex.conj_ofNat, ← key, neg_neg]

/-- C113: the Lindhard function at complex conjugate frequencies. -/
theorem C113_lindhard (ranks : ℕ) (hr : 0 < ranks) (eig : Eig o) (tol beta mu : ℝ) (kmesh : List (Lat n))
    (e : Lat n → Matrix o o ℂ) (z : ℂ) (q : Lat n) (a b c d : o) :
    lindhard ranks eig tol beta mu kmesh e ((starRingEnd ℂ) z) q a b c d
      = (starRingEnd ℂ) (lindhard ranks eig tol beta mu kmesh e z q d c b a) := by
  have hf : ∀ x y, totalFactor tol beta ((starRingEnd ℂ) z) x y = (starRingEnd ℂ) (totalFactor tol beta z x y) := by
    intro x y
    simp only [totalFactor, RCLike.norm_conj]
    split_ifs
    · rw [conj_ofReal]
    · rw [map_div₀, map_add, conj_ofReal, conj_ofReal]
  have ht : ∀ k, lindhardTerm eig tol beta mu e ((starRingEnd ℂ) z) q k a b c d
      = (starRingEnd ℂ) (lindhardTerm eig tol beta mu e z q k d c b a) := by
    intro k
    simp only [lindhardTerm, map_sum, map_mul, hf, Matrix.conjTranspose_apply, Complex.star_def, conj_conj]
    refine Finset.sum_congr rfl fun i _ => Finset.sum_congr rfl fun j _ => ?_
    ring
  simp only [lindhard, Pi.smul_apply, smul_eq_mul, map_mul, map_inv₀, Complex.conj_natCast]
  congr 1
  rw [C02_distributedAccumulate ranks hr, C02_distributedAccumulate ranks hr]
  have hs : ∀ (l : List (Lat n)) (F : Lat n → Bubble.T4 o) (a b c d : o),
      (l.map F).sum a b c d = (l.map fun k => F k a b c d).sum := by
    intro l F a b c d
    induction l with
    | nil => rfl
    | cons x l ih => simp only [List.map_cons, List.sum_cons, Pi.add_apply, ih]
  rw [hs, hs, map_list_sum, List.map_map]
  congr 1
  exact List.map_congr_left fun k _ => ht k

/-- C113: the real time bubble is conjugate to the one with the two pairs exchanged, whatever the Green's functions. -/
theorem C113_real_time {T : Type*} (les gtr : T → Lat n → o → o → ℂ) (t : T) (r : Lat n) (a b c d : o) :
    chi0Tr les gtr t (-r) c d a b = (starRingEnd ℂ) (chi0Tr les gtr t r a b c d) := by
  simp only [chi0Tr, map_sub, map_mul, conj_I, conj_conj, neg_neg]
  ring

/-! ## Random phase approximation -/

variable {P : Type*} [DecidableEq P]

/-- C113: the RPA susceptibility of a hermitian bubble and a hermitian interaction.  `conj` maps a mesh point to the
one at the opposite frequency (`id` for static quantities). -/
theorem C113_rpa (ranks : ℕ) (hr : 0 < ranks) (mesh : List P) (hm : mesh.Nodup) (conj : P → P)
    (hmem : ∀ p ∈ mesh, conj p ∈ mesh) (chi0 : P → Rpa.T4 o ℂ)
    (h0 : ∀ p ∈ mesh, ∀ a b c d, chi0 (conj p) a b c d = (starRingEnd ℂ) (chi0 p d c b a)) (U : Rpa.T4 o ℂ)
    (hU : ∀ a b c d, U a b c d = (starRingEnd ℂ) (U d c b a)) (p : P) (hp : p ∈ mesh) (a b c d : o) :
    Rpa.solveRpaPH ranks mesh chi0 U (conj p) a b c d
      = (starRingEnd ℂ) (Rpa.solveRpaPH ranks mesh chi0 U p d c b a) := by
  rw [Rpa.solveRpaPH_apply ranks hr mesh hm chi0 U p hp, Rpa.solveRpaPH_apply ranks hr mesh hm chi0 U _ (hmem p hp)]
  have e0 : chi0 (conj p) = dag (chi0 p) := by funext a b c d; exact h0 p hp a b c d
  have e1 : U = dag U := by funext a b c d; exact hU a b c d
  conv_lhs => rw [e0, e1, rpaPoint_dag]
  rfl

/-- C113: exchange of the two pairs together with frequency and momentum. -/
theorem C113_rpa_exchange (ranks : ℕ) (hr : 0 < ranks) (mesh : List P) (hm : mesh.Nodup) (neg : P → P)
    (hmem : ∀ p ∈ mesh, neg p ∈ mesh) (chi0 : P → Rpa.T4 o ℂ)
    (h0 : ∀ p ∈ mesh, ∀ a b c d, chi0 (neg p) a b c d = chi0 p c d a b) (U : Rpa.T4 o ℂ)
    (hU : ∀ a b c d, U a b c d = U c d a b) (p : P) (hp : p ∈ mesh) (a b c d : o) :
    Rpa.solveRpaPH ranks mesh chi0 U (neg p) a b c d = Rpa.solveRpaPH ranks mesh chi0 U p c d a b := by
  rw [Rpa.solveRpaPH_apply ranks hr mesh hm chi0 U p hp, Rpa.solveRpaPH_apply ranks hr mesh hm chi0 U _ (hmem p hp)]
  have e0 : chi0 (neg p) = exch (chi0 p) := by funext a b c d; exact h0 p hp a b c d
  have e1 : U = exch U := by funext a b c d; exact hU a b c d
  conv_lhs => rw [e0, e1, rpaPoint_exch]
  rfl

/-- C113: a static hermitian bubble gives real diagonal response `χ_{abba}`. -/
theorem C113_rpa_real (ranks : ℕ) (hr : 0 < ranks) (mesh : List P) (hm : mesh.Nodup) (chi0 : P → Rpa.T4 o ℂ)
    (h0 : ∀ p ∈ mesh, ∀ a b c d, chi0 p a b c d = (starRingEnd ℂ) (chi0 p d c b a)) (U : Rpa.T4 o ℂ)
    (hU : ∀ a b c d, U a b c d = (starRingEnd ℂ) (U d c b a)) (p : P) (hp : p ∈ mesh) (a b : o) :
    (Rpa.solveRpaPH ranks mesh chi0 U p a b b a).im = 0 :=
  conj_eq_iff_im.1 (C113_rpa ranks hr mesh hm id (fun _ h => h) chi0 h0 U hU p hp a b b a).symm

/-- the hypotheses for one orbital and two frequencies with complex conjugate values -/
example : ∃ (chi0 : Bool → Rpa.T4 (Fin 1) ℂ) (U : Rpa.T4 (Fin 1) ℂ), chi0 true 0 0 0 0 ≠ chi0 false 0 0 0 0 ∧ U ≠ 0 ∧
    (∀ p ∈ [true, false], ∀ a b c d, chi0 (!p) a b c d = (starRingEnd ℂ) (chi0 p d c b a)) ∧
    ∀ a b c d, U a b c d = (starRingEnd ℂ) (U d c b a) := by
  refine ⟨fun p _ _ _ _ => if p then I else -I, fun _ _ _ _ => 2, ?_, ?_, ?_, ?_⟩
  · intro h
    have := congrArg Complex.im h
    norm_num at this
  · intro h
    have := congrFun (congrFun (congrFun (congrFun h 0) 0) 0) 0
    norm_num at this
  · intro p _ a b c d
    cases p <;> simp
  · intro a b c d
    rw [Complex.conj_ofNat]

open Verif.Operators in
/-- C113: the interaction tensor of a self adjoint operator has both symmetries. -/
theorem C113_tensor {ι : Type} [LinearOrder ι] (fs : List ι) (hnd : fs.Nodup) (x : Op ι) (hx : Canonical x)
    (hself : dagger x = x) (ts : List (Mono ι × ℂ)) (hts : Enumerates ts x) (U : Operators.T4 fs.length)
    (hU : getRpaTensor fs ts = .ok U) (a b c d : Fin fs.length) :
    U a b c d = (starRingEnd ℂ) (U d c b a) ∧ U a b c d = U c d a b := by
  obtain ⟨h1, h2, -⟩ := C37_rpa_tensor fs hnd x hx ts hts U hU
  have h3 : U a b c d = U c d a b := by rw [h2 c b a d, h1 a b c d, neg_neg]
  exact ⟨by rw [HartreeFock.rpaTensor_conj fs hnd x hx hself ts hts U hU]; exact h3, h3⟩

open Verif.Operators in
/-- C113: the RPA of a self adjoint interaction operator and a hermitian bubble, the route documented for users
(`get_rpa_tensor`, then `solve_rpa_PH`). -/
theorem C113_rpa_hamiltonian {ι : Type} [LinearOrder ι] (fs : List ι) (hnd : fs.Nodup) (x : Op ι) (hx : Canonical x)
    (hself : dagger x = x) (ts : List (Mono ι × ℂ)) (hts : Enumerates ts x) (U : Operators.T4 fs.length)
    (hU : getRpaTensor fs ts = .ok U) (ranks : ℕ) (hr : 0 < ranks) (mesh : List P) (hm : mesh.Nodup) (conj : P → P)
    (hmem : ∀ p ∈ mesh, conj p ∈ mesh) (chi0 : P → Rpa.T4 (Fin fs.length) ℂ)
    (h0 : ∀ p ∈ mesh, ∀ a b c d, chi0 (conj p) a b c d = (starRingEnd ℂ) (chi0 p d c b a)) (p : P) (hp : p ∈ mesh)
    (a b c d : Fin fs.length) :
    Rpa.solveRpaPH ranks mesh chi0 U (conj p) a b c d
      = (starRingEnd ℂ) (Rpa.solveRpaPH ranks mesh chi0 U p d c b a) :=
  C113_rpa ranks hr mesh hm conj hmem chi0 h0 U (fun a b c d => (C113_tensor fs hnd x hx hself ts hts U hU a b c d).1) p hp a b c d

/-! ## Screened interaction -/

variable {W K : Type*} [DecidableEq W] [DecidableEq K]

/-- C113: the three routes to the screened interaction. -/
theorem C113_screened (ranks : ℕ) (hr : 0 < ranks) (mesh : List (W × K)) (hm : mesh.Nodup) (kmesh : List K)
    (conj : W → W) (hmem : ∀ p ∈ mesh, (conj p.1, p.2) ∈ mesh) (chi : W × K → Rpa.T4 o ℂ)
    (h0 : ∀ w k a b c d, chi (conj w, k) a b c d = (starRingEnd ℂ) (chi (w, k) d c b a)) (V : Rpa.Bare W K o ℂ)
    (hV : ∀ w k a b c d, V.at (conj w) k a b c d = (starRingEnd ℂ) (V.at w k d c b a)) :
    (∃ res, Rpa.screenedBubble ranks mesh kmesh kmesh chi V = .ok res ∧ ∀ p ∈ mesh, ∀ a b c d,
      res (conj p.1, p.2) a b c d = (starRingEnd ℂ) (res p d c b a)) ∧
    ∃ res, Rpa.screenedGeneralized ranks mesh kmesh kmesh chi V = .ok res ∧ ∀ p ∈ mesh, ∀ a b c d,
      res (conj p.1, p.2) a b c d = (starRingEnd ℂ) (res p d c b a) := by
  have e0 : ∀ w k, chi (conj w, k) = dag (chi (w, k)) := by intro w k; funext a b c d; exact h0 w k a b c d
  have e1 : ∀ w k, V.at (conj w) k = dag (V.at w k) := by intro w k; funext a b c d; exact hV w k a b c d
  refine ⟨⟨_, if_neg (by simp), fun p hp a b c d => ?_⟩, _, if_neg (by simp), fun p hp a b c d => ?_⟩
  · rw [C02_distributedAssign ranks hr _ hm, if_pos (hmem p hp), C02_distributedAssign ranks hr _ hm, if_pos hp]
    dsimp only
    rw [e0, e1, (screened_dag _ _).1]
    rfl
  · rw [C02_distributedAssign ranks hr _ hm, if_pos (hmem p hp), C02_distributedAssign ranks hr _ hm, if_pos hp]
    dsimp only
    rw [e0, e1, (screened_dag _ _).2]
    rfl

/-- C113: the optimised routine for a static interaction. -/
theorem C113_screened_opt (ranks : ℕ) (hr : 0 < ranks) (mesh : List (W × K)) (hm : mesh.Nodup) (kmesh : List K)
    (conj : W → W) (hmem : ∀ p ∈ mesh, (conj p.1, p.2) ∈ mesh) (chi : W × K → Rpa.T4 o ℂ)
    (h0 : ∀ w k a b c d, chi (conj w, k) a b c d = (starRingEnd ℂ) (chi (w, k) d c b a)) (V : K → Rpa.T4 o ℂ)
    (hV : ∀ k a b c d, V k a b c d = (starRingEnd ℂ) (V k d c b a)) :
    ∃ res, Rpa.screenedOpt ranks mesh kmesh kmesh chi V = .ok res ∧ ∀ p ∈ mesh, ∀ a b c d,
      res (conj p.1, p.2) a b c d = (starRingEnd ℂ) (res p d c b a) := by
  rw [(Rpa.C17_overloads_agree ranks mesh kmesh kmesh chi V).1]
  exact (C113_screened ranks hr mesh hm kmesh conj hmem chi h0 (.static V) fun _ k => hV k).1

/-! ## Bethe-Salpeter equations -/

variable {ν : Type*} [Fintype ν] [DecidableEq ν]

/-- C113: the lattice Bethe-Salpeter equation with all frequencies.  Conjugation exchanges the fermionic
frequencies. -/
theorem C113_bse (cn : ν ≃ ν) (conj : W → W) (chi0 : W → ν → K → Bse.T4 o ℂ)
    (h0 : ∀ w m k a b c d, chi0 (conj w) m k a b c d = (starRingEnd ℂ) (chi0 w (cn m) k d c b a))
    (gamma : W → Bse.T6 ν o ℂ)
    (hG : ∀ w m m' a b c d, gamma (conj w) m m' a b c d = (starRingEnd ℂ) (gamma w (cn m') (cn m) d c b a))
    (k : K) (w : W) (m m' : ν) (a b c d : o) :
    Bse.chiqFromChi0qAndGamma chi0 gamma k (conj w) m m' a b c d
      = (starRingEnd ℂ) (Bse.chiqFromChi0qAndGamma chi0 gamma k w (cn m') (cn m) d c b a) := by
  have e0 : (fun m => chi0 (conj w) m k) = fun m => dag (chi0 w (cn m) k) := by
    funext m a b c d; exact h0 w m k a b c d
  have e1 : gamma (conj w) = dag6 cn (gamma w) := by funext m m' a b c d; exact hG w m m' a b c d
  have h := bsePoint_dag6 cn (Bse.diagEmbed fun m => chi0 w m k) (gamma w)
  rw [← diagEmbed_dag6 cn (fun m => chi0 w m k), ← e1] at h
  rw [Bse.chiqFromChi0qAndGamma, e0, h]
  rfl

/-- C113: the frequency summed lattice susceptibility. -/
theorem C113_bse_sum (ranks : ℕ) (hr : 0 < ranks) (beta : ℝ) (mesh : List (K × W)) (hm : mesh.Nodup) (cn : ν ≃ ν)
    (conj : W → W) (hmem : ∀ p ∈ mesh, (p.1, conj p.2) ∈ mesh) (chi0 : W → ν → K → Bse.T4 o ℂ)
    (h0 : ∀ w m k a b c d, chi0 (conj w) m k a b c d = (starRingEnd ℂ) (chi0 w (cn m) k d c b a))
    (gamma : W → Bse.T6 ν o ℂ)
    (hG : ∀ w m m' a b c d, gamma (conj w) m m' a b c d = (starRingEnd ℂ) (gamma w (cn m') (cn m) d c b a))
    (p : K × W) (hp : p ∈ mesh) (a b c d : o) :
    Bse.chiqSumNuFromChi0qAndGamma ranks (beta : ℂ) mesh chi0 gamma (p.1, conj p.2) a b c d
      = (starRingEnd ℂ) (Bse.chiqSumNuFromChi0qAndGamma ranks (beta : ℂ) mesh chi0 gamma p d c b a) := by
  rw [Bse.chiqSumNuFromChi0qAndGamma, C02_distributedAssign ranks hr _ hm, if_pos (hmem p hp),
    C02_distributedAssign ranks hr _ hm, if_pos hp]
  have h : Bse.bsePoint (Bse.diagEmbed fun m => chi0 (conj p.2) m p.1) (gamma (conj p.2))
      = dag6 cn (Bse.bsePoint (Bse.diagEmbed fun m => chi0 p.2 m p.1) (gamma p.2)) := by
    funext m m' a b c d
    exact C113_bse cn conj chi0 h0 gamma hG p.1 p.2 m m' a b c d
  dsimp only
  rw [h, traceNu_dag6]
  rfl

/-- C113: with the tail correction of `solve_lattice_bse`. -/
theorem C113_lattice_bse (ranks : ℕ) (hr : 0 < ranks) (beta : ℝ) (mesh : List (K × W)) (hm : mesh.Nodup)
    (wkmesh : List (W × K)) (hwm : wkmesh.Nodup) (hwk : ∀ p, p ∈ wkmesh ↔ (p.2, p.1) ∈ mesh) (cn : ν ≃ ν)
    (conj : W → W) (hmem : ∀ p ∈ mesh, (p.1, conj p.2) ∈ mesh) (tail : W → K → Bse.T4 o ℂ)
    (ht : ∀ w k a b c d, tail (conj w) k a b c d = (starRingEnd ℂ) (tail w k d c b a)) (chi0 : W → ν → K → Bse.T4 o ℂ)
    (h0 : ∀ w m k a b c d, chi0 (conj w) m k a b c d = (starRingEnd ℂ) (chi0 w (cn m) k d c b a))
    (gamma : W → Bse.T6 ν o ℂ)
    (hG : ∀ w m m' a b c d, gamma (conj w) m m' a b c d = (starRingEnd ℂ) (gamma w (cn m') (cn m) d c b a))
    (p : K × W) (hp : p ∈ mesh) (a b c d : o) :
    (Bse.solveLatticeBse ranks (beta : ℂ) mesh wkmesh tail chi0 gamma).1 (p.1, conj p.2) a b c d
      = (starRingEnd ℂ) ((Bse.solveLatticeBse ranks (beta : ℂ) mesh wkmesh tail chi0 gamma).1 p d c b a) := by
  simp only [Bse.solveLatticeBse, Pi.add_apply, Pi.sub_apply, map_add, map_sub]
  rw [C113_bse_sum ranks hr beta mesh hm cn conj hmem chi0 h0 gamma hG p hp, ht]
  congr 2
  rw [Bse.chi0qSumNu, C02_distributedAssign ranks hr _ hwm, if_pos ((hwk _).2 (hmem p hp)),
    C02_distributedAssign ranks hr _ hwm, if_pos ((hwk _).2 hp)]
  simp only [map_div₀, map_mul, map_sum, conj_ofReal, h0]
  congr 1
  exact Equiv.sum_comp cn fun m => (starRingEnd ℂ) (chi0 p.2 m p.1 d c b a)

/-- C113: the irreducible vertex extracted from a hermitian impurity susceptibility. -/
theorem C113_vertex (cn : ν ≃ ν) (conj : W → W) (chi0 chi : W → Bse.T6 ν o ℂ)
    (h0 : ∀ w m m' a b c d, chi0 (conj w) m m' a b c d = (starRingEnd ℂ) (chi0 w (cn m') (cn m) d c b a))
    (h1 : ∀ w m m' a b c d, chi (conj w) m m' a b c d = (starRingEnd ℂ) (chi w (cn m') (cn m) d c b a))
    (w : W) (m m' : ν) (a b c d : o) :
    Bse.solveLocalBse chi0 chi (conj w) m m' a b c d
      = (starRingEnd ℂ) (Bse.solveLocalBse chi0 chi w (cn m') (cn m) d c b a) ∧
    Bse.reducibleVertexF chi0 chi (conj w) m m' a b c d
      = (starRingEnd ℂ) (Bse.reducibleVertexF chi0 chi w (cn m') (cn m) d c b a) := by
  have e0 : chi0 (conj w) = dag6 cn (chi0 w) := by funext m m' a b c d; exact h0 w m m' a b c d
  have e1 : chi (conj w) = dag6 cn (chi w) := by funext m m' a b c d; exact h1 w m m' a b c d
  have e2 : chi (conj w) - chi0 (conj w) = dag6 cn (chi w - chi0 w) := by
    funext m m' a b c d
    simp only [Pi.sub_apply, dag6, h0, h1, map_sub]
  constructor
  · simp only [Bse.solveLocalBse, Bse.inverseIw, e0, e1, inverse_dag6, Pi.sub_apply, map_sub]
    rfl
  · simp only [Bse.reducibleVertexF, Bse.productIw, Bse.inverseIw]
    rw [e2, e0, inverse_dag6, product_dag6, product_dag6]
    have ha : ∀ A B C : Bse.T6 ν o ℂ, Bse.product .PH (Bse.product .PH A B) C
        = Bse.product .PH A (Bse.product .PH B C) := by
      intro A B C
      apply Bse.chMat_injective .PH
      simp only [Bse.chMat_product, Matrix.mul_assoc]
    rw [ha]
    rfl

/-- C113: the susceptibility of the dual Bethe-Salpeter equation, for triangle vertices with
`L(-iω, -iν) = conj L(iω, iν)`. -/
theorem C113_dual (ranks : ℕ) (hr : 0 < ranks) (mesh : List (K × W)) (hm : mesh.Nodup) (cn : ν ≃ ν)
    (conj : W → W) (hmem : ∀ p ∈ mesh, (p.1, conj p.2) ∈ mesh) (chi0 : W → ν → K → Bse.T4 o ℂ)
    (h0 : ∀ w m k a b c d, chi0 (conj w) m k a b c d = (starRingEnd ℂ) (chi0 w (cn m) k d c b a))
    (Fv : W → Bse.T6 ν o ℂ)
    (hF : ∀ w m m' a b c d, Fv (conj w) m m' a b c d = (starRingEnd ℂ) (Fv w (cn m') (cn m) d c b a))
    (L : W → ν → Bse.T4 o ℂ) (hL : ∀ w m a b c d, L (conj w) m a b c d = (starRingEnd ℂ) (L w (cn m) a b c d))
    (imp : W → Bse.T4 o ℂ) (hi : ∀ w a b c d, imp (conj w) a b c d = (starRingEnd ℂ) (imp w d c b a))
    (p : K × W) (hp : p ∈ mesh) (a b c d : o) :
    Bse.solveLatticeDbse ranks mesh chi0 Fv L imp (p.1, conj p.2) a b c d
      = (starRingEnd ℂ) (Bse.solveLatticeDbse ranks mesh chi0 Fv L imp p d c b a) := by
  have h : Bse.bsePoint (Bse.diagEmbed fun m => chi0 (conj p.2) m p.1) (Fv (conj p.2))
      = dag6 cn (Bse.bsePoint (Bse.diagEmbed fun m => chi0 p.2 m p.1) (Fv p.2)) := by
    funext m m' a b c d
    exact C113_bse cn conj chi0 h0 Fv hF p.1 p.2 m m' a b c d
  have eL : L (conj p.2) = fun m a b c d => (starRingEnd ℂ) (L p.2 (cn m) a b c d) := by
    funext m a b c d; exact hL p.2 m a b c d
  simp only [Bse.solveLatticeDbse, Pi.add_apply, map_add, hi]
  congr 1
  rw [Bse.chiqSumNuL, C02_distributedAssign ranks hr _ hm, if_pos (hmem p hp),
    C02_distributedAssign ranks hr _ hm, if_pos hp]
  dsimp only
  rw [h, eL, scalarProduct_dag6]
  rfl

/-- the map of fermionic frequencies `n ↦ -n-1` on a window of four frequencies, and an interaction vertex -/
example : ∃ (cn : Fin 4 ≃ Fin 4) (gamma : Bool → Bse.T6 (Fin 4) (Fin 1) ℂ), (∀ m : Fin 4, (cn m : ℤ) - 2 = -((m : ℤ) - 2) - 1) ∧
    gamma ≠ 0 ∧ ∀ w m m' a b c d, gamma (!w) m m' a b c d = (starRingEnd ℂ) (gamma w (cn m') (cn m) d c b a) := by
  refine ⟨Fin.revPerm, fun w m m' _ _ _ _ => if w then I * ((m : ℕ) * (3 - (m' : ℕ)) : ℂ) else -I * ((m : ℕ) * (3 - (m' : ℕ)) : ℂ),
    ?_, ?_, ?_⟩
  · decide
  · intro h
    have := congrFun (congrFun (congrFun (congrFun (congrFun (congrFun (congrFun h true) 1) 0) 0) 0) 0) 0
    norm_num at this
  · intro w m m' a b c d
    have hr : ∀ m : Fin 4, (((Fin.revPerm m : Fin 4) : ℕ) : ℂ) = 3 - ((m : ℕ) : ℂ) := by
      intro m
      fin_cases m <;> norm_num [Fin.revPerm, Fin.rev]
    cases w <;> simp only [Bool.not_true, Bool.not_false, if_true, Bool.false_eq_true, if_false, hr, map_mul, map_neg, map_sub, conj_I,
      Complex.conj_natCast, Complex.conj_ofNat] <;> ring

end Verif.Herm
