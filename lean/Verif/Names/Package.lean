import Verif.Names.Fate

/-!
# Checking a module
-/

namespace Verif.Names

/-- the names read by function objects -/
def clos : Stmt → ℕ
  | .clo xs => mask xs
  | .seq a b => clos a ||| clos b
  | .ite a b => clos a ||| clos b
  | .ifv _ a b => clos a ||| clos b
  | .loop _ a b => clos a ||| clos b
  | .tryE a b d => clos a ||| (clos b ||| clos d)
  | .fin a b => clos a ||| clos b
  | _ => 0

/-- all assignments of truth values to the flags -/
def cases : List Nm → List (Nm → Option Bool)
  | [] => [fun _ => none]
  | x :: r => (cases r).flatMap fun c => [fun y => if y = x then some true else c y, fun y => if y = x then some false else c y]

/-- the local names of a function -/
def Fn.locals (f : Fn) : ℕ := if f.isClass then 0 else mask f.params ||| (mask f.dead ||| binds f.body)

/-- `G` are names certainly bound in the module -/
def Fn.outside (B : List Nm) (m : Mod) (G : ℕ) (f : Fn) : ℕ :=
  diff (mask B ||| (mask m.star ||| (mask f.outer ||| G))) f.locals

def Fn.check (B : List Nm) (m : Mod) (G : ℕ) (f : Fn) : Bool :=
  (cases f.flags).all fun tr => (chk ⟨f.outside B m G, clos f.body, tr⟩ f.body (mask f.params)).isSome

/-- names certainly bound after the import, `none` if the import could read an unbound name -/
def Mod.globals (B : List Nm) (m : Mod) : Option ℕ :=
  match chk ⟨mask B ||| mask m.star, clos m.top, fun _ => none⟩ m.top 0 with
  | some ⟨some G, _, _⟩ => some G
  | _ => none

def Mod.check (B : List Nm) (m : Mod) : Bool :=
  match m.globals B with
  | none => false
  | some G => m.fns.all fun f => f.check B m G

/-! ## What the check guarantees -/

theorem exists_case (truth : Nm → Bool) : ∀ xs : List Nm, ∃ c ∈ cases xs, ∀ x b, c x = some b → truth x = b
  | [] => ⟨_, List.mem_singleton.2 rfl, fun x b h => by simp at h⟩
  | y :: r => by
    obtain ⟨c, hc, h⟩ := exists_case truth r
    cases hy : truth y with
    | true =>
      refine ⟨fun z => if z = y then some true else c z, List.mem_flatMap.2 ⟨c, hc, by simp⟩, fun x b hb => ?_⟩
      dsimp only at hb
      split_ifs at hb with hx
      · rw [hx, hy]; exact Option.some.inj hb
      · exact h x b hb
    | false =>
      refine ⟨fun z => if z = y then some false else c z, List.mem_flatMap.2 ⟨c, hc, by simp⟩, fun x b hb => ?_⟩
      dsimp only at hb
      split_ifs at hb with hx
      · rw [hx, hy]; exact Option.some.inj hb
      · exact h x b hb

theorem locals_testBit (f : Fn) (x : Nm) :
    f.locals.testBit x = true ↔ f.isClass = false ∧ (x ∈ f.params ∨ x ∈ f.dead ∨ Assigns f.body x) := by
  unfold Fn.locals
  cases f.isClass
  · simp only [Bool.false_eq_true, if_false, true_and, Nat.testBit_or, Bool.or_eq_true, mask_testBit, binds_testBit]
  · simp

/-- the set `outside` is right if `G` is below the names of the module -/
theorem outside_fits {B : List Nm} {m : Mod} {s : St} {G : ℕ} (hG : Below G s) (f : Fn) (truth : Nm → Bool) {x : Nm}
    (hx : (f.outside B m G).testBit x = true) : ¬ (f.ctx B m s truth).loc x ∧ (f.ctx B m s truth).glob x := by
  simp only [Fn.outside, diff_testBit, Bool.and_eq_true, Nat.testBit_or, Bool.or_eq_true, mask_testBit] at hx
  refine ⟨fun hl => ?_, ?_⟩
  · rw [(locals_testBit f x).2 hl] at hx
    simp at hx
  · rcases hx.1 with h | h | h | h
    · exact .inl h
    · exact .inr (.inl h)
    · exact .inr (.inr (.inl h))
    · exact .inr (.inr (.inr (hG x h)))

theorem outside_above {B : List Nm} {m : Mod} {s : St} {G : ℕ} (hG : Above G s) (f : Fn) (truth : Nm → Bool) {x : Nm}
    (hl : ¬ (f.ctx B m s truth).loc x) (hg : (f.ctx B m s truth).glob x) : (f.outside B m G).testBit x = true := by
  simp only [Fn.outside, diff_testBit, Bool.and_eq_true, Nat.testBit_or, Bool.or_eq_true, mask_testBit, Bool.not_eq_true']
  refine ⟨?_, ?_⟩
  · rcases hg with h | h | h | h
    · exact .inl h
    · exact .inr (.inl h)
    · exact .inr (.inr (.inl h))
    · exact .inr (.inr (.inr (hG x h)))
  · rw [Bool.eq_false_iff]
    exact fun h => hl ((locals_testBit f x).1 h)

theorem import_globals {B : List Nm} {m : Mod} {G : ℕ} (hm : m.globals B = some G) {truth : Nm → Bool} {o : Outcome} {s : St}
    (h : Exec (m.ctx B truth) m.top ⟨fun _ => False, fun _ => False⟩ o s) : (∀ x, o ≠ .nameErr x) ∧ (o = .norm → Below G s) := by
  unfold Mod.globals at hm
  cases hc : chk ⟨mask B ||| mask m.star, clos m.top, fun _ => none⟩ m.top 0 with
  | none => rw [hc] at hm; simp at hm
  | some r =>
    have hf : Fits ⟨mask B ||| mask m.star, clos m.top, fun _ => none⟩ (m.ctx B truth) := by
      refine ⟨fun x hx => ⟨id, ?_⟩, fun x b h => by simp at h⟩
      simp only [Nat.testBit_or, Bool.or_eq_true, mask_testBit] at hx
      exact hx
    have hg := sound hf h 0 r hc (fun x hx => by simp at hx) (fun x hx => absurd hx id)
    refine ⟨fun x hx => by subst hx; exact hg.2, ?_⟩
    rintro rfl
    obtain ⟨-, N, hN, hb⟩ := hg
    rw [hc] at hm
    obtain ⟨n, b, d⟩ := r
    simp only at hN
    subst hN
    simp only [Option.some.injEq] at hm
    exact hm ▸ hb

theorem call_good {B : List Nm} {m : Mod} {s : St} {G : ℕ} (hG : Below G s) {f : Fn} (hf : f.check B m G = true)
    {truth : Nm → Bool} {o : Outcome} {t : St} (h : f.Call B m s truth o t) :
    (∀ x, o ≠ .nameErr x) ∧ ∀ x, t.live x → Readable (f.ctx B m s truth) t x := by
  obtain ⟨tr, htr, ht⟩ := exists_case truth f.flags
  have hc := List.all_eq_true.1 hf tr htr
  obtain ⟨r, hr⟩ := Option.isSome_iff_exists.1 hc
  have hfit : Fits ⟨f.outside B m G, clos f.body, tr⟩ (f.ctx B m s truth) := ⟨fun x hx => outside_fits hG f truth hx, ht⟩
  have hg := sound hfit h _ r hr (fun x hx => (mask_testBit _ _).1 hx) (fun x hx => absurd hx id)
  exact ⟨fun x hx => by subst hx; exact hg.2, fun x hx => (hg.1 x hx).1⟩

/-! ## Functions that fail -/

/-- names possibly bound after the import -/
def Mod.globalsUp (B : List Nm) (m : Mod) : ℕ :=
  ((up (mask B ||| mask m.star) (fun _ => none) m.top 0).norm).getD 0

theorem import_above {B : List Nm} {m : Mod} {s : St} (h : m.Imported B s) : Above (m.globalsUp B) s := by
  obtain ⟨truth, h⟩ := h
  have hf : UFits (mask B ||| mask m.star) (fun _ => none) (m.ctx B truth) := by
    refine ⟨fun x _ hx => ?_, fun x b h => by simp at h⟩
    simp only [Nat.testBit_or, Bool.or_eq_true, mask_testBit]
    exact hx
  obtain ⟨N, hN, hb⟩ := up_sound hf h 0 (fun x hx => absurd hx id)
  unfold Mod.globalsUp
  rw [hN]
  exact hb

/-- no run of the function with these truth values comes to its end or to a `return` -/
def Fn.hopeless (B : List Nm) (m : Mod) (f : Fn) (tr : Nm → Option Bool) : Bool :=
  let r := up (f.outside B m (m.globalsUp B)) tr f.body (mask f.params)
  r.norm.isNone && !r.ret

theorem hopeless_sound {B : List Nm} {m : Mod} {s : St} (hs : m.Imported B s) {f : Fn} {tr : Nm → Option Bool}
    (hf : f.hopeless B m tr = true) {truth : Nm → Bool} (ht : ∀ x b, tr x = some b → truth x = b) {o : Outcome} {t : St}
    (h : f.Call B m s truth o t) : o ≠ .norm ∧ o ≠ .ret := by
  have hfit : UFits (f.outside B m (m.globalsUp B)) tr (f.ctx B m s truth) :=
    ⟨fun x hl hg => outside_above (import_above hs) f truth hl hg, ht⟩
  have hg := up_sound hfit h (mask f.params) (fun x hx => (mask_testBit _ _).2 hx)
  simp only [Fn.hopeless, Bool.and_eq_true, Option.isNone_iff_eq_none, Bool.not_eq_true'] at hf
  constructor
  · rintro rfl
    obtain ⟨N, hN, -⟩ := hg
    rw [hf.1] at hN
    exact absurd hN (by simp)
  · rintro rfl
    have hg' : (up (f.outside B m (m.globalsUp B)) tr f.body (mask f.params)).ret = true := hg
    rw [hf.2] at hg'
    exact absurd hg' (by simp)

/-- the end of one run: branches are taken as in the lists, loops are not entered -/
def Fn.oneRun (B : List Nm) (m : Mod) (f : Fn) (tr : Nm → Option Bool) (chTop ch : List Bool) : Option Outcome :=
  match trace (mask B ||| mask m.star) (mask B ||| mask m.star) (fun _ => none) m.top chTop 0 with
  | some (.norm, _, G) =>
    match trace (f.outside B m G) (f.outside B m G) tr f.body ch (mask f.params) with
    | some (o, _, _) => some o
    | _ => none
  | _ => none

theorem oneRun_sound {B : List Nm} {m : Mod} {f : Fn} {tr : Nm → Option Bool} {chTop ch : List Bool} {o : Outcome}
    (h : f.oneRun B m tr chTop ch = some o) (truth : Nm → Bool) (ht : ∀ x b, tr x = some b → truth x = b) :
    ∃ s, m.Imported B s ∧ ∃ t, f.Call B m s truth o t := by
  unfold Fn.oneRun at h
  split at h
  next chr G hG =>
    split at h
    next y chr' M' hM =>
      obtain rfl := Option.some.inj h
      have htop : TFits (mask B ||| mask m.star) (mask B ||| mask m.star) (fun _ => none) (m.ctx B truth) := by
        refine ⟨fun x hx => ⟨id, ?_⟩, fun x _ hx => ?_, fun x b h => by simp at h⟩
        · simp only [Nat.testBit_or, Bool.or_eq_true, mask_testBit] at hx
          exact hx
        · simp only [Nat.testBit_or, Bool.or_eq_true, mask_testBit]
          exact hx
      obtain ⟨live, hrun⟩ := trace_sound htop m.top chTop 0 (fun _ => False) _ _ _ hG
      have e0 : stOf 0 (fun _ => False) = ⟨fun _ => False, fun _ => False⟩ := by
        unfold stOf
        congr 1
        funext x
        simp
      rw [e0] at hrun
      refine ⟨_, ⟨truth, hrun⟩, ?_⟩
      have hfit : TFits (f.outside B m G) (f.outside B m G) tr (f.ctx B m (stOf G live) truth) :=
        ⟨fun x hx => outside_fits (fun _ h => h) f truth hx, fun x hl hg => outside_above (fun _ h => h) f truth hl hg, ht⟩
      obtain ⟨live', hcall⟩ := trace_sound hfit f.body ch (mask f.params) (fun _ => False) _ _ _ hM
      have e1 : stOf (mask f.params) (fun _ => False) = ⟨fun x => x ∈ f.params, fun _ => False⟩ := by
        unfold stOf
        congr 1
        funext x
        exact propext (mask_testBit _ _)
      rw [e1] at hcall
      exact ⟨_, hcall⟩
    next => exact absurd h (by simp)
  next => exact absurd h (by simp)

/-- the program in which every loop that is reached runs at least once -/
def Stmt.entered : Stmt → Stmt
  | .loop .any a b => .loop .once a.entered b.entered
  | .loop k a b => .loop k a.entered b.entered
  | .seq a b => .seq a.entered b.entered
  | .ite a b => .ite a.entered b.entered
  | .ifv x a b => .ifv x a.entered b.entered
  | .tryE a b d => .tryE a.entered b.entered d.entered
  | .fin a b => .fin a.entered b.entered
  | s => s

def Fn.entered (f : Fn) : Fn := { f with body := f.body.entered }

end Verif.Names
