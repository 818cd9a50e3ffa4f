import Verif.Names.Package
import Verif.Names.Data.Package

/-!
# C118: every name that is read exists

The functions and modules are those of `Verif/Names/Data`; how they run is `Exec` of `Verif/Names/Model.lean`, which knows
nothing of the checker.
-/

namespace Verif.Names

theorem package_check : package.all (fun m => m.check builtins) = true := by decide +kernel

theorem mod_check {m : Mod} (hm : m ∈ package) : ∃ G, m.globals builtins = some G ∧ ∀ f ∈ m.fns, f.check builtins m G = true := by
  have h := List.all_eq_true.1 package_check m hm
  unfold Mod.check at h
  split at h
  · exact absurd h (by simp)
  · next G hG => exact ⟨G, hG, List.all_eq_true.1 h⟩

/-- **C118** (import): no import of a Python module of the package reads an unbound name. -/
theorem C118_import {m : Mod} (hm : m ∈ package) {truth : Nm → Bool} {o : Outcome} {s : St}
    (h : Exec (m.ctx builtins truth) m.top ⟨fun _ => False, fun _ => False⟩ o s) (x : Nm) : o ≠ .nameErr x := by
  obtain ⟨G, hG, -⟩ := mod_check hm
  exact (import_globals hG h).1 x

/-- **C118** (calls): after the import no call of one of the functions `m.fns` of the package, in no run, reads an unbound name,
and the function objects it leaves behind find all names they close over. Missing are the eight functions treated below. -/
theorem C118_names_partial {m : Mod} (hm : m ∈ package) {s : St} (hs : m.Imported builtins s) {f : Fn} (hf : f ∈ m.fns)
    {truth : Nm → Bool} {o : Outcome} {t : St} (h : f.Call builtins m s truth o t) :
    (∀ x, o ≠ .nameErr x) ∧ ∀ x, t.live x → Readable (f.ctx builtins m s truth) t x := by
  obtain ⟨G, hG, hall⟩ := mod_check hm
  obtain ⟨tr, hs⟩ := hs
  exact call_good ((import_globals hG hs).2 rfl) (hall f hf) h

/-- the size of the package: 26 modules and 291 functions and class bodies -/
example : package.length = 26 ∧ (package.map fun m => m.fns.length).sum = 291 := by decide +kernel

/-- non-vacuity: a run of a checked function that comes to its `return` -/
example : ∃ s, Gw.mod.Imported builtins s ∧ ∃ f ∈ Gw.mod.fns, ∃ truth t, f.Call builtins Gw.mod s truth .ret t := by
  obtain ⟨s, hs, t, ht⟩ := oneRun_sound (B := builtins) (m := Gw.mod) (f := Gw.f_bubble_PI_wk) (tr := fun _ => none) (chTop := [])
    (ch := []) (o := .ret) (by decide +kernel) (fun _ => false) (by simp)
  exact ⟨s, hs, _, by simp [Gw.mod], _, t, ht⟩

/-! ## The other functions, where names are bound -/

/-- the parameter `x` has the truth value `b` -/
def given (x : Nm) (b : Bool) : Nm → Option Bool := fun y => if y = x then some b else none

theorem given_ok {x : Nm} {b : Bool} {truth : Nm → Bool} (h : truth x = b) (y : Nm) (c : Bool) (hc : given x b y = some c) : truth y = c := by
  unfold given at hc
  split_ifs at hc with hy
  rw [hy, h]
  exact Option.some.inj hc

theorem call_good_given {m : Mod} (hm : m ∈ package) {s : St} (hs : m.Imported builtins s) {f : Fn} {tr : Nm → Option Bool}
    (hf : (chk ⟨f.outside builtins m ((m.globals builtins).getD 0), clos f.body, tr⟩ f.body (mask f.params)).isSome = true)
    {truth : Nm → Bool} (ht : ∀ x b, tr x = some b → truth x = b) {o : Outcome} {t : St} (h : f.Call builtins m s truth o t) (x : Nm) :
    o ≠ .nameErr x := by
  obtain ⟨G, hG, -⟩ := mod_check hm
  obtain ⟨tr', hs⟩ := hs
  rw [hG] at hf
  obtain ⟨r, hr⟩ := Option.isSome_iff_exists.1 hf
  have hfit : Fits ⟨f.outside builtins m G, clos f.body, tr⟩ (f.ctx builtins m s truth) :=
    ⟨fun x hx => outside_fits ((import_globals hG hs).2 rfl) f truth hx, ht⟩
  have hg := sound hfit h _ r hr (fun x hx => (mask_testBit _ _).1 hx) (fun x hx => absurd hx id)
  rintro rfl
  exact hg.2

theorem mem_lattice_utils : LatticeUtils.mod ∈ package := by simp [package]
theorem mem_gw_solver : GwSolver.mod ∈ package := by simp [package]
theorem mem_wannier90 : Wannier90.mod ∈ package := by simp [package]
theorem mem_fitdlr : Fitdlr.mod ∈ package := by simp [package]

/-- `strip_sigma` (lattice_utils.py:122-139) without debugging -/
theorem C118_strip_sigma_partial {s : St} (hs : LatticeUtils.mod.Imported builtins s) {truth : Nm → Bool} (ht : truth n_debug = false)
    {o : Outcome} {t : St} (h : LatticeUtils.f_strip_sigma.Call builtins LatticeUtils.mod s truth o t) (x : Nm) : o ≠ .nameErr x :=
  call_good_given mem_lattice_utils hs (tr := given n_debug false) (by decide +kernel) (given_ok ht) h x

/-- `GWSolver.solve_iter` (gw_solver.py:292-385) in runs in which the loops are entered (`maxiter ≥ 1`) -/
theorem C118_solve_iter_partial {s : St} (hs : GwSolver.mod.Imported builtins s) {truth : Nm → Bool} {o : Outcome} {t : St}
    (h : GwSolver.f_GWSolver_solve_iter.entered.Call builtins GwSolver.mod s truth o t) (x : Nm) : o ≠ .nameErr x := by
  cases hg : truth n_gw with
  | true => exact call_good_given mem_gw_solver hs (tr := given n_gw true) (by decide +kernel) (given_ok hg) h x
  | false => exact call_good_given mem_gw_solver hs (tr := given n_gw false) (by decide +kernel) (given_ok hg) h x

/-- `GWSolver.solve_iter` with `gw=False`, also without iterations -/
theorem C118_solve_iter_hf_partial {s : St} (hs : GwSolver.mod.Imported builtins s) {truth : Nm → Bool} (ht : truth n_gw = false)
    {o : Outcome} {t : St} (h : GwSolver.f_GWSolver_solve_iter.Call builtins GwSolver.mod s truth o t) (x : Nm) : o ≠ .nameErr x :=
  call_good_given mem_gw_solver hs (tr := given n_gw false) (by decide +kernel) (given_ok ht) h x

/-- `parse_reciprocal_lattice_vectors_from_wannier90_wout` (wannier90.py:170-207) for files that are not empty -/
theorem C118_reciprocal_partial {s : St} (hs : Wannier90.mod.Imported builtins s) {truth : Nm → Bool} {o : Outcome} {t : St}
    (h : Wannier90.f_parse_reciprocal_lattice_vectors_from_wannier90_wout.entered.Call builtins Wannier90.mod s truth o t) (x : Nm) :
    o ≠ .nameErr x :=
  call_good_given mem_wannier90 hs (tr := fun _ => none) (by decide +kernel) (fun _ _ h => by simp at h) h x

/-! ## The other functions, where names are unbound -/

/-- `bubble_setup` (lattice_utils.py:142-188) never comes to its end: it reads `sigma`, which exists nowhere. -/
theorem C118_bubble_setup_violated :
    (∀ s, LatticeUtils.mod.Imported builtins s → ∀ truth o t,
      LatticeUtils.f_bubble_setup.Call builtins LatticeUtils.mod s truth o t → o ≠ .norm ∧ o ≠ .ret) ∧
    ∃ s, LatticeUtils.mod.Imported builtins s ∧ ∃ truth t,
      LatticeUtils.f_bubble_setup.Call builtins LatticeUtils.mod s truth (.nameErr n_sigma) t := by
  refine ⟨fun s hs truth o t h => hopeless_sound hs (tr := fun _ => none) (by decide +kernel) (fun _ _ h => by simp at h) h, ?_⟩
  obtain ⟨s, hs, t, ht⟩ := oneRun_sound (B := builtins) (m := LatticeUtils.mod) (f := LatticeUtils.f_bubble_setup) (tr := fun _ => none)
    (chTop := []) (ch := []) (o := .nameErr n_sigma) (by decide +kernel) (fun _ => false) (by simp)
  exact ⟨s, hs, _, t, ht⟩

/-- `chi0_w0k_tau_bubble` (lattice_utils.py:299-317) never comes to its end: it deletes `grt` and reads `sigma`. -/
theorem C118_chi0_w0k_violated :
    (∀ s, LatticeUtils.mod.Imported builtins s → ∀ truth o t,
      LatticeUtils.f_chi0_w0k_tau_bubble.Call builtins LatticeUtils.mod s truth o t → o ≠ .norm ∧ o ≠ .ret) ∧
    ∃ s, LatticeUtils.mod.Imported builtins s ∧ ∃ truth t,
      LatticeUtils.f_chi0_w0k_tau_bubble.Call builtins LatticeUtils.mod s truth (.nameErr n_grt) t := by
  refine ⟨fun s hs truth o t h => hopeless_sound hs (tr := fun _ => none) (by decide +kernel) (fun _ _ h => by simp at h) h, ?_⟩
  obtain ⟨s, hs, t, ht⟩ := oneRun_sound (B := builtins) (m := LatticeUtils.mod) (f := LatticeUtils.f_chi0_w0k_tau_bubble)
    (tr := fun _ => none) (chTop := []) (ch := [true]) (o := .nameErr n_grt) (by decide +kernel) (fun _ => false) (by simp)
  exact ⟨s, hs, _, t, ht⟩

/-- `triqs_driver.initial_guess_from_tau_interp1d` (fitdlr.py:129-144) never comes to its end: `make_gf_dlr_imtime` exists nowhere. -/
theorem C118_interp1d_violated :
    (∀ s, Fitdlr.mod.Imported builtins s → ∀ truth o t,
      Fitdlr.f_triqs_driver_initial_guess_from_tau_interp1d.Call builtins Fitdlr.mod s truth o t → o ≠ .norm ∧ o ≠ .ret) ∧
    ∃ s, Fitdlr.mod.Imported builtins s ∧ ∃ truth t,
      Fitdlr.f_triqs_driver_initial_guess_from_tau_interp1d.Call builtins Fitdlr.mod s truth (.nameErr n_make_gf_dlr_imtime) t := by
  refine ⟨fun s hs truth o t h => hopeless_sound hs (tr := fun _ => none) (by decide +kernel) (fun _ _ h => by simp at h) h, ?_⟩
  obtain ⟨s, hs, t, ht⟩ := oneRun_sound (B := builtins) (m := Fitdlr.mod) (f := Fitdlr.f_triqs_driver_initial_guess_from_tau_interp1d)
    (tr := fun _ => none) (chTop := []) (ch := []) (o := .nameErr n_make_gf_dlr_imtime) (by decide +kernel) (fun _ => false) (by simp)
  exact ⟨s, hs, _, t, ht⟩

/-- `strip_sigma` (lattice_utils.py:122-139) with `debug=True` never comes to its end: it reads `p`. -/
theorem C118_strip_sigma_violated :
    (∀ s, LatticeUtils.mod.Imported builtins s → ∀ truth : Nm → Bool, truth n_debug = true → ∀ o t,
      LatticeUtils.f_strip_sigma.Call builtins LatticeUtils.mod s truth o t → o ≠ .norm ∧ o ≠ .ret) ∧
    ∃ s, LatticeUtils.mod.Imported builtins s ∧ ∃ truth t,
      LatticeUtils.f_strip_sigma.Call builtins LatticeUtils.mod s truth (.nameErr n_p) t := by
  refine ⟨fun s hs truth hd o t h => hopeless_sound hs (tr := given n_debug true) (by decide +kernel) (given_ok hd) h, ?_⟩
  obtain ⟨s, hs, t, ht⟩ := oneRun_sound (B := builtins) (m := LatticeUtils.mod) (f := LatticeUtils.f_strip_sigma)
    (tr := given n_debug true) (chTop := []) (ch := []) (o := .nameErr n_p) (by decide +kernel) (fun _ => true) (given_ok rfl)
  exact ⟨s, hs, _, t, ht⟩

/-- `GWSolver.solve_iter` (gw_solver.py:292-385) with `gw=True` and without iterations (`maxiter=0`) reads the unbound `W_wk`. -/
theorem C118_solve_iter_violated : ∃ s, GwSolver.mod.Imported builtins s ∧ ∃ truth : Nm → Bool, truth n_gw = true ∧ ∃ t,
    GwSolver.f_GWSolver_solve_iter.Call builtins GwSolver.mod s truth (.nameErr n_W_wk) t := by
  obtain ⟨s, hs, t, ht⟩ := oneRun_sound (B := builtins) (m := GwSolver.mod) (f := GwSolver.f_GWSolver_solve_iter)
    (tr := given n_gw true) (chTop := []) (ch := [true]) (o := .nameErr n_W_wk) (by decide +kernel) (fun _ => true) (given_ok rfl)
  exact ⟨s, hs, _, rfl, t, ht⟩

/-- The parsers of `*.wout` files (wannier90.py:119-258) read an unbound name for an empty file. -/
theorem C118_wout_violated :
    (∃ s, Wannier90.mod.Imported builtins s ∧ ∃ truth t,
      Wannier90.f_parse_lattice_vectors_from_wannier90_wout.Call builtins Wannier90.mod s truth (.nameErr n_line) t) ∧
    (∃ s, Wannier90.mod.Imported builtins s ∧ ∃ truth t,
      Wannier90.f_parse_reciprocal_lattice_vectors_from_wannier90_wout.Call builtins Wannier90.mod s truth (.nameErr n_idx) t) ∧
    (∃ s, Wannier90.mod.Imported builtins s ∧ ∃ truth t,
      Wannier90.f_parse_orbital_positions_from_wannier90_wout.Call builtins Wannier90.mod s truth (.nameErr n_idxend) t) := by
  have key : ∀ (f : Fn) (o : Outcome), f.oneRun builtins Wannier90.mod (fun _ => none) [] [] = some o →
      ∃ s, Wannier90.mod.Imported builtins s ∧ ∃ truth t, f.Call builtins Wannier90.mod s truth o t := by
    intro f o h
    obtain ⟨s, hs, t, ht⟩ := oneRun_sound h (fun _ => false) (by simp)
    exact ⟨s, hs, _, t, ht⟩
  exact ⟨key _ _ (by decide +kernel), key _ _ (by decide +kernel), key _ _ (by decide +kernel)⟩

end Verif.Names
