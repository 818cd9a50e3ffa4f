import Verif.PointGroup.Lemmas
import Verif.Basis.Pairing
import Verif.Eliashberg.Props
import Verif.Herm.Fourier

/-!
# C117: lattice symmetries in the Eliashberg equation

The product commutes with every symmetry of the Green's function and the vertex: a gap that belongs to a representation of the
symmetry group stays in it, as the option `symmetrize_fct` of `solve_eliashberg` assumes.
-/

noncomputable section

namespace Verif.PointGroup

open Complex Verif.Fourier Verif.Bubble Verif.Parallel Verif.Basis Verif.Gw Verif.Eliashberg

set_option linter.unusedSectionVars false

variable {d : ℕ} {n : Fin d → ℕ} [∀ i, NeZero (n i)] {o : Type*} [Fintype o] [DecidableEq o]

/-- the inverse operation -/
def PointOp.symm (P : PointOp n) : PointOp n where
  k := P.k.symm
  r := P.r.symm
  phase := fun x y => by
    have h := P.phase (P.k.symm x) (P.r.symm y)
    rw [AddEquiv.apply_symm_apply, AddEquiv.apply_symm_apply] at h
    exact h.symm

/-- action of a symmetry operation on a gap function: `Δ'(k) = S Δ(φ⁻¹ k) Sᵀ` -/
def gapAct (P : PointOp n) (S : Matrix o o ℂ) (delta : ℤ → Lat n → o → o → ℂ) : ℤ → Lat n → o → o → ℂ :=
  fun w k => rotGap S (delta w (P.k.symm k))

variable {P : PointOp n} {S : Matrix o o ℂ}

theorem gDeltaG_rel (P : PointOp n) {ranks : ℕ} (hr : 0 < ranks) (N Ng : ℕ) {lat : List (Lat n)} (hc : Complete lat)
    (g delta : ℤ → Lat n → o → o → ℂ) :
    gDeltaG ranks N Ng lat (fun w k => g w (P.k k)) (fun w k => delta w (P.k k))
      = (gDeltaG ranks N Ng lat g delta).map fun F x => F (x.1, P.k x.2) := by
  unfold gDeltaG
  split_ifs
  · rfl
  · refine congrArg Except.ok (funext fun x => ?_)
    have hw : (wIndices .fermion N).Nodup := Herm.wIndices_nodup _ _
    refine Eq.trans ?_ (assign_comp P hr hw hc (fun p : ℤ × Lat n => gdgPoint (g p.1 p.2) (g p.1 (-p.2)) (delta p.1 p.2))
      x.1 x.2).symm
    simp only [map_neg]
    rfl

theorem eliashberg_rel (P : PointOp n) {ranks : ℕ} (hr : 0 < ranks) (N Ng NG : ℕ) (beta : ℝ) {lat : List (Lat n)}
    (hc : Complete lat) (gamma : ℤ → Lat n → T4 o) (g delta : ℤ → Lat n → o → o → ℂ) :
    eliashbergProduct ranks N Ng NG beta lat (fun w k => gamma w (P.k k)) (fun w k => g w (P.k k)) (fun w k => delta w (P.k k))
      = (eliashbergProduct ranks N Ng NG beta lat gamma g delta).map fun u w k => u w (P.k k) := by
  unfold eliashbergProduct
  split_ifs with h
  · rfl
  rw [gDeltaG_rel P hr N Ng hc]
  cases gDeltaG ranks N Ng lat g delta with
  | error e => rfl
  | ok F =>
    simp only [Except.map]
    refine congrArg Except.ok (funext fun w => funext fun k => ?_)
    rw [hc.assign hr, hc.assign hr]
    funext a b
    congr 1
    have hperm : ((gapMesh N lat).map fun p : ℤ × Lat n => (p.1, P.k p.2)).Perm (gapMesh N lat) := by
      have hnd : (gapMesh N lat).Nodup := (Herm.wIndices_nodup .fermion N).product hc.1
      refine (List.perm_ext_iff_of_nodup (hnd.map ?_) hnd).2 ?_
      · rintro ⟨w, k⟩ ⟨w', k'⟩ hh
        obtain ⟨h1, h2⟩ := Prod.mk.inj hh
        exact Prod.ext h1 (P.k.injective h2)
      · rintro ⟨w, k⟩
        have hm : ∀ w k, (w, k) ∈ gapMesh N lat ↔ w ∈ wIndices .fermion N := fun w k =>
          (Dyson.mem_prodMesh (wmesh := wIndices .fermion N) (kmesh := lat)).trans (and_iff_left (hc.2 k))
        rw [List.mem_map, hm]
        constructor
        · rintro ⟨⟨w', k'⟩, h1, h2⟩
          rw [← (Prod.mk.inj h2).1]
          exact (hm _ _).1 h1
        · intro h1
          exact ⟨(w, P.k.symm k), (hm _ _).2 h1, Prod.ext rfl (P.k.apply_symm_apply k)⟩
    have hsum := (hperm.map fun p => gammaF (gamma (w - p.1) (P.k k - p.2)) (F p) a b).sum_eq
    rw [List.map_map] at hsum
    refine Eq.trans ?_ hsum
    refine congrArg List.sum (List.map_congr_left fun p _ => ?_)
    simp only [Function.comp_apply, map_sub]

/-- the real space ingredients of the FFT products with other names -/
theorem eliashberg_fft_rel (P : PointOp n) {ranks : ℕ} (hr : 0 < ranks) (N Ng L LG : ℕ) (T : Transforms) {lat : List (Lat n)}
    (hc : Complete lat) (gammaDyn : ℕ → Lat n → T4 o) (gammaConst : Lat n → T4 o) (g delta : ℤ → Lat n → o → o → ℂ) :
    eliashbergProductFFT ranks N Ng L LG T lat (fun t r => gammaDyn t (P.r r)) (fun r => gammaConst (P.r r))
        (fun w k => g w (P.k k)) (fun w k => delta w (P.k k))
      = (eliashbergProductFFT ranks N Ng L LG T lat gammaDyn gammaConst g delta).map (fun u w k => u w (P.k k)) ∧
    eliashbergProductFFTConst ranks N Ng T lat (fun r => gammaConst (P.r r)) (fun w k => g w (P.k k))
        (fun w k => delta w (P.k k))
      = (eliashbergProductFFTConst ranks N Ng T lat gammaConst g delta).map fun u w k => u w (P.k k) := by
  have hF : ∀ F : ℤ × Lat n → o → o → ℂ, fTr T (fun x => F (x.1, P.k x.2)) = fun t r => fTr T F t (P.r r) := by
    intro F
    funext t r a b
    have e1 : ∀ w, kToR (fun k => F (w, P.k k)) r = kToR (fun k => F (w, k)) (P.r r) := fun w =>
      congrFun (kToR_comp P fun k => F (w, k)) r
    unfold fTr
    simp only [e1]
  constructor
  · unfold eliashbergProductFFT
    rw [gDeltaG_rel P hr N Ng hc]
    cases gDeltaG ranks N Ng lat g delta with
    | error e => rfl
    | ok F =>
      simp only [Except.map, hF]
      unfold dynamicGammaF
      by_cases hL : L + 1 ≠ LG + 1
      · simp only [if_pos hL]
      · simp only [if_neg hL]
        refine congrArg Except.ok (funext fun w => ?_)
        rw [← rToK_comp]
        congr 1
        funext r a b
        have h := fun t => assign_comp P.swap hr (List.nodup_range (n := L + 1)) hc (fun p : ℕ × Lat n =>
          gammaF (gammaDyn p.1 p.2) (fTr T F p.1 p.2)) t r
        have h' : ∀ t, distributedAssign ranks ((List.range (L + 1)).product lat) (fun p : ℕ × Lat n =>
            gammaF (gammaDyn p.1 (P.r p.2)) (fTr T F p.1 (P.r p.2))) (t, r)
            = distributedAssign ranks ((List.range (L + 1)).product lat) (fun p : ℕ × Lat n =>
            gammaF (gammaDyn p.1 p.2) (fTr T F p.1 p.2)) (t, P.r r) := fun t => (h t).symm
        simp only [h']
        rfl
  · unfold eliashbergProductFFTConst
    rw [gDeltaG_rel P hr N Ng hc]
    cases gDeltaG ranks N Ng lat g delta with
    | error e => rfl
    | ok F =>
      simp only [Except.map, hF]
      refine congrArg Except.ok (funext fun w => ?_)
      exact rToK_comp P (constantGammaF gammaConst (fTr T F))

theorem sym_inv {E : Type*} {f : Lat n → E} {R : E → E} (φ : Lat n ≃+ Lat n) (h : ∀ k, f (φ k) = R (f k)) :
    (fun k => R (f (φ.symm k))) = f := by
  funext k
  rw [← h, φ.apply_symm_apply]

/-- C117: the product of the linearised Eliashberg equation commutes with the symmetries of the Green's function and the
vertex. -/
theorem C117_eliashberg (hS : Unitary S) {ranks : ℕ} (hr : 0 < ranks) (N Ng NG : ℕ) (beta : ℝ) {lat : List (Lat n)}
    (hc : Complete lat) {gamma : ℤ → Lat n → T4 o} (hgam : ∀ w, SymChi P S (gamma w)) {g : ℤ → Lat n → o → o → ℂ}
    (hg : ∀ w, SymG P S (g w)) (delta : ℤ → Lat n → o → o → ℂ) :
    eliashbergProduct ranks N Ng NG beta lat gamma g (gapAct P S delta)
      = (eliashbergProduct ranks N Ng NG beta lat gamma g delta).map (gapAct P S) := by
  have h1 := C104_eliashberg hS ranks N Ng NG beta lat (fun w k => gamma w (P.k.symm k)) (fun w k => g w (P.k.symm k))
    fun w k => delta w (P.k.symm k)
  have h2 := eliashberg_rel P.symm hr N Ng NG beta hc gamma g delta
  rw [show (fun w k => rotChi S (gamma w (P.k.symm k))) = gamma from funext fun w => sym_inv P.k (hgam w),
    show (fun w k => rotG S (g w (P.k.symm k))) = g from funext fun w => sym_inv P.k (hg w)] at h1
  refine h1.trans ?_
  rw [show eliashbergProduct ranks N Ng NG beta lat (fun w k => gamma w (P.k.symm k)) (fun w k => g w (P.k.symm k))
    (fun w k => delta w (P.k.symm k)) = _ from h2]
  cases eliashbergProduct ranks N Ng NG beta lat gamma g delta <;> rfl

/-- C117: the same for the products with Fourier transforms. -/
theorem C117_eliashberg_fft (hS : Unitary S) {ranks : ℕ} (hr : 0 < ranks) (N Ng L LG : ℕ) (T : Transforms)
    (h1 : IsLinearMap ℂ T.toTau) (h2 : IsLinearMap ℂ T.toFreq) {lat : List (Lat n)} (hc : Complete lat)
    {gammaDyn : ℕ → Lat n → T4 o} (hdyn : ∀ t r, gammaDyn t (P.r r) = rotChi S (gammaDyn t r))
    {gammaConst : Lat n → T4 o} (hcon : ∀ r, gammaConst (P.r r) = rotChi S (gammaConst r))
    {g : ℤ → Lat n → o → o → ℂ} (hg : ∀ w, SymG P S (g w)) (delta : ℤ → Lat n → o → o → ℂ) :
    eliashbergProductFFT ranks N Ng L LG T lat gammaDyn gammaConst g (gapAct P S delta)
      = (eliashbergProductFFT ranks N Ng L LG T lat gammaDyn gammaConst g delta).map (gapAct P S) ∧
    eliashbergProductFFTConst ranks N Ng T lat gammaConst g (gapAct P S delta)
      = (eliashbergProductFFTConst ranks N Ng T lat gammaConst g delta).map (gapAct P S) := by
  obtain ⟨a1, a2⟩ := C104_eliashberg_fft hS ranks N Ng L LG T h1 h2 lat (fun t r => gammaDyn t (P.r.symm r))
    (fun r => gammaConst (P.r.symm r)) (fun w k => g w (P.k.symm k)) fun w k => delta w (P.k.symm k)
  obtain ⟨b1, b2⟩ := eliashberg_fft_rel P.symm hr N Ng L LG T hc gammaDyn gammaConst g delta
  rw [show (fun t r => rotChi S (gammaDyn t (P.r.symm r))) = gammaDyn from funext fun t => sym_inv P.r (hdyn t),
    show (fun r => rotChi S (gammaConst (P.r.symm r))) = gammaConst from sym_inv P.r hcon,
    show (fun w k => rotG S (g w (P.k.symm k))) = g from funext fun w => sym_inv P.k (hg w)] at a1
  rw [show (fun r => rotChi S (gammaConst (P.r.symm r))) = gammaConst from sym_inv P.r hcon,
    show (fun w k => rotG S (g w (P.k.symm k))) = g from funext fun w => sym_inv P.k (hg w)] at a2
  constructor
  · refine a1.trans ?_
    rw [show eliashbergProductFFT ranks N Ng L LG T lat (fun t r => gammaDyn t (P.r.symm r)) (fun r => gammaConst (P.r.symm r))
      (fun w k => g w (P.k.symm k)) (fun w k => delta w (P.k.symm k)) = _ from b1]
    cases eliashbergProductFFT ranks N Ng L LG T lat gammaDyn gammaConst g delta <;> rfl
  · refine a2.trans ?_
    rw [show eliashbergProductFFTConst ranks N Ng T lat (fun r => gammaConst (P.r.symm r))
      (fun w k => g w (P.k.symm k)) (fun w k => delta w (P.k.symm k)) = _ from b2]
    cases eliashbergProductFFTConst ranks N Ng T lat gammaConst g delta <;> rfl

/-- C117: the operation maps gap functions of an eigenvalue to gap functions of the same eigenvalue. -/
theorem C117_eigenvalue (hS : Unitary S) {ranks : ℕ} (hr : 0 < ranks) (N Ng NG : ℕ) (beta : ℝ) {lat : List (Lat n)}
    (hc : Complete lat) {gamma : ℤ → Lat n → T4 o} (hgam : ∀ w, SymChi P S (gamma w)) {g : ℤ → Lat n → o → o → ℂ}
    (hg : ∀ w, SymG P S (g w)) {delta : ℤ → Lat n → o → o → ℂ} {lam : ℂ}
    (h : eliashbergProduct ranks N Ng NG beta lat gamma g delta = .ok fun w k => lam • delta w k) :
    eliashbergProduct ranks N Ng NG beta lat gamma g (gapAct P S delta) = .ok fun w k => lam • gapAct P S delta w k := by
  rw [C117_eliashberg hS hr N Ng NG beta hc hgam hg, h]
  refine congrArg Except.ok (funext fun w => funext fun k => ?_)
  exact rot2_smul S S lam _

/-- C117: a gap in a one dimensional representation, `Δ(φ k) = c S Δ(k) Sᵀ`, stays in it (an s, d or g wave gap stays one). -/
theorem C117_representation (hS : Unitary S) {ranks : ℕ} (hr : 0 < ranks) (N Ng NG : ℕ) (beta : ℝ) {lat : List (Lat n)}
    (hc : Complete lat) {gamma : ℤ → Lat n → T4 o} (hgam : ∀ w, SymChi P S (gamma w)) {g : ℤ → Lat n → o → o → ℂ}
    (hg : ∀ w, SymG P S (g w)) {delta u : ℤ → Lat n → o → o → ℂ} {c : ℂ} (hd : ∀ w k, delta w (P.k k) = c • rotGap S (delta w k))
    (hu : eliashbergProduct ranks N Ng NG beta lat gamma g delta = .ok u) :
    ∀ w k, u w (P.k k) = c • rotGap S (u w k) := by
  obtain ⟨h1, h2⟩ := (C59_accepts N Ng NG beta gamma g delta).1 ⟨u, hu⟩
  obtain ⟨u0, v, z, hu0, hv, hz, hlin⟩ := C60_linear hr N Ng NG beta hc gamma g (fun _ _ _ _ => 0) (gapAct P S delta) c h1 h2
  have e : (fun m k a b => (0 : ℂ) + c * gapAct P S delta m k a b) = delta := by
    funext m k a b
    have := congrFun (congrFun (hd m (P.k.symm k)) a) b
    rw [P.k.apply_symm_apply] at this
    rw [zero_add, this]
    rfl
  have h0 : ∀ m k a b, u0 m k a b = 0 := by
    intro m k a b
    rw [eliashbergProduct_ok hr (by omega) (by omega) beta hc] at hu0
    injection hu0 with hu0
    subst hu0
    simp [sumValue, gammaF, pairF, gdgPoint]
  rw [e, hu] at hz
  rw [C117_eliashberg hS hr N Ng NG beta hc hgam hg, hu] at hv
  injection hz with hz
  have hv' : gapAct P S u = v := Except.ok.inj hv
  intro w k
  funext a b
  have h3 := hlin w (P.k k) a b
  rw [← hz, h0, zero_add, ← hv'] at h3
  rw [h3, gapAct, P.k.symm_apply_apply]
  rfl

end Verif.PointGroup
