import Verif.Names.Check

/-!
# Functions that fail: upper bounds for bound names, and witnesses
-/

namespace Verif.Names

/-- the names bound or deleted in a statement -/
def binds : Stmt → ℕ
  | .bind xs => mask xs
  | .del x => 2 ^ x
  | .seq a b => binds a ||| binds b
  | .ite a b => binds a ||| binds b
  | .ifv _ a b => binds a ||| binds b
  | .loop _ a b => binds a ||| binds b
  | .tryE a b d => binds a ||| (binds b ||| binds d)
  | .fin a b => binds a ||| binds b
  | _ => 0

theorem binds_testBit (p : Stmt) (x : Nm) : (binds p).testBit x = true ↔ Assigns p x := by
  induction p with
  | bind xs => exact mask_testBit xs x
  | del y =>
    simp only [binds, Assigns, Nat.testBit_two_pow, decide_eq_true_eq]
    exact ⟨Eq.symm, Eq.symm⟩
  | seq a b iha ihb | ite a b iha ihb | ifv _ a b iha ihb | loop _ a b iha ihb | fin a b iha ihb =>
    simp only [binds, Assigns, Nat.testBit_or, Bool.or_eq_true, iha, ihb]
  | tryE a b d iha ihb ihd => simp only [binds, Assigns, Nat.testBit_or, Bool.or_eq_true, iha, ihb, ihd]
  | skip | use | clo | ret | raise | brk | cont => simp [binds, Assigns]

/-! ## Upper bounds -/

/-- names possibly bound if the statement ends normally, by `break`, by `continue`, and whether it can end by `return` -/
structure URes where
  norm : Option ℕ
  brk : Option ℕ
  cont : Option ℕ
  ret : Bool

def URes.join (a b : URes) : URes := ⟨Names.join a.norm b.norm, Names.join a.brk b.brk, Names.join a.cont b.cont, a.ret || b.ret⟩

def URes.never : URes := ⟨none, none, none, false⟩

def uFrom (n : Option ℕ) (f : ℕ → URes) : URes :=
  match n with
  | none => .never
  | some N => f N

/-- possible only if both are -/
def both (a b : Option ℕ) : Option ℕ :=
  match a with
  | none => none
  | some _ => b

/-- `g`: names possibly found outside of the function -/
def up (g : ℕ) (tr : Nm → Option Bool) : Stmt → ℕ → URes
  | .skip, M => ⟨some M, none, none, false⟩
  | .use xs, M => if xs.all fun x => M.testBit x || g.testBit x then ⟨some M, none, none, false⟩ else .never
  | .bind xs, M => ⟨some (M ||| mask xs), none, none, false⟩
  | .del x, M => if M.testBit x then ⟨some (diff M (2 ^ x)), none, none, false⟩ else .never
  | .clo _, M => ⟨some M, none, none, false⟩
  | .seq a b, M =>
    let r := up g tr a M
    let q := uFrom r.norm (up g tr b)
    ⟨q.norm, join r.brk q.brk, join r.cont q.cont, r.ret || q.ret⟩
  | .ite a b, M => (up g tr a M).join (up g tr b M)
  | .ifv x a b, M =>
    match tr x with
    | some true => up g tr a M
    | some false => up g tr b M
    | none => (up g tr a M).join (up g tr b M)
  | .loop k b e, M =>
    let H := M ||| binds b
    let r := up g tr b H
    let q := uFrom (match k with
      | .any => some H
      | .forever => none
      | .once => join r.norm r.cont) (up g tr e)
    ⟨join q.norm r.brk, q.brk, q.cont, r.ret || q.ret⟩
  | .tryE b h e, M =>
    let r := up g tr b M
    let p := up g tr h (M ||| binds b)
    let q := uFrom r.norm (up g tr e)
    ⟨join q.norm p.norm, join r.brk (join q.brk p.brk), join r.cont (join q.cont p.cont), r.ret || (q.ret || p.ret)⟩
  | .fin b f, M =>
    let r := up g tr b M
    let q := up g tr f (M ||| binds b)
    ⟨join (both r.norm q.norm) q.norm, join (both r.brk q.norm) q.brk, join (both r.cont q.norm) q.cont, r.ret || q.ret⟩
  | .ret, _ => ⟨none, none, none, true⟩
  | .raise, _ => .never
  | .brk, M => ⟨none, some M, none, false⟩
  | .cont, M => ⟨none, none, some M, false⟩

/-- every bound name is in the set -/
def Above (M : ℕ) (s : St) : Prop := ∀ x, s.bound x → M.testBit x = true

def Ge (r : Option ℕ) (s : St) : Prop := ∃ N, r = some N ∧ Above N s

theorem Ge.left {a b : Option ℕ} {s : St} (h : Ge a s) : Ge (join a b) s := by
  obtain ⟨N, rfl, hN⟩ := h
  cases b with
  | none => exact ⟨N, rfl, hN⟩
  | some M => exact ⟨N ||| M, rfl, fun x hx => by simp only [Nat.testBit_or, Bool.or_eq_true]; exact .inl (hN x hx)⟩

theorem Ge.right {a b : Option ℕ} {s : St} (h : Ge b s) : Ge (join a b) s := by
  obtain ⟨M, rfl, hM⟩ := h
  cases a with
  | none => exact ⟨M, rfl, hM⟩
  | some N => exact ⟨N ||| M, rfl, fun x hx => by simp only [Nat.testBit_or, Bool.or_eq_true]; exact .inr (hM x hx)⟩

theorem exec_bound {c : Ctx} {p : Stmt} {s t : St} {o : Outcome} (h : Exec c p s o t) :
    ∀ x, t.bound x → s.bound x ∨ Assigns p x := by
  induction h with
  | skip | use_ok | use_exc | use_err | use_live | del_err | clo | ret | raise | brk | cont => intro x hx; exact .inl hx
  | bind_ok xs s => intro x hx; exact hx
  | bind_exc xs ys s hy => intro x hx; exact hx.imp id (hy x)
  | del_ok y s hy => intro x hx; exact .inl hx.1
  | seq _ _ ih1 ih2 | loop_last _ _ _ ih1 ih2 | fin_norm _ _ ih1 ih2 | fin_stop _ _ _ _ ih1 ih2 =>
    intro x hx
    rcases ih2 x hx with h | h
    · exact (ih1 x h).imp id .inl
    · exact .inr (.inr h)
  | seq_stop _ _ _ ih | ite_left _ _ ih | ifv_left _ _ _ ih | loop_brk _ _ ih | loop_stop _ _ _ ih | fin_err _ _ ih =>
    intro x hx
    exact (ih x hx).imp id .inl
  | ite_right _ _ ih | ifv_right _ _ _ ih | loop_done _ _ ih =>
    intro x hx
    exact (ih x hx).imp id .inr
  | loop_more _ _ _ ih1 ih2 =>
    intro x hx
    rcases ih2 x hx with h | h
    · exact (ih1 x h).imp id .inl
    · exact .inr h
  | try_norm _ _ _ ih1 ih2 =>
    intro x hx
    rcases ih2 x hx with h | h
    · exact (ih1 x h).imp id .inl
    · exact .inr (.inr (.inr h))
  | try_caught _ _ _ ih1 ih2 =>
    intro x hx
    rcases ih2 x hx with h | h
    · exact (ih1 x h).imp id .inl
    · exact .inr (.inr (.inl h))
  | try_stop _ _ _ _ ih =>
    intro x hx
    exact (ih x hx).imp id .inl

theorem above_or {c : Ctx} {p : Stmt} {s t : St} {o : Outcome} (h : Exec c p s o t) {M : ℕ} (hM : Above M s) :
    Above (M ||| binds p) t := by
  intro x hx
  simp only [Nat.testBit_or, Bool.or_eq_true, binds_testBit]
  exact (exec_bound h x hx).imp (hM x) id

/-- `g` and `tr` fit to the context -/
structure UFits (g : ℕ) (tr : Nm → Option Bool) (c : Ctx) : Prop where
  glob : ∀ x, ¬ c.loc x → c.glob x → g.testBit x = true
  truth : ∀ x b, tr x = some b → c.truth x = b

def UGood (r : URes) (o : Outcome) (t : St) : Prop :=
  match o with
    | .norm => Ge r.norm t
    | .brk => Ge r.brk t
    | .cont => Ge r.cont t
    | .ret => r.ret = true
    | .exc => True
    | .nameErr _ => True

theorem UGood.left {r q : URes} {o : Outcome} {t : St} (h : UGood r o t) : UGood (r.join q) o t := by
  cases o <;> first | exact Ge.left h | trivial | (simp only [UGood, URes.join, Bool.or_eq_true] at h ⊢; exact .inl h)

theorem UGood.right {r q : URes} {o : Outcome} {t : St} (h : UGood q o t) : UGood (r.join q) o t := by
  cases o <;> first | exact Ge.right h | trivial | (simp only [UGood, URes.join, Bool.or_eq_true] at h ⊢; exact .inr h)

theorem uFrom_ge {n : Option ℕ} {s : St} (h : Ge n s) (f : ℕ → URes) : ∃ N, Above N s ∧ uFrom n f = f N := by
  obtain ⟨N, rfl, hN⟩ := h
  exact ⟨N, hN, rfl⟩

theorem or_or_self (M b : ℕ) : M ||| b ||| b = M ||| b := by
  rw [Nat.or_assoc, Nat.or_self]

theorem up_sound {g : ℕ} {tr : Nm → Option Bool} {c : Ctx} (hf : UFits g tr c) {p : Stmt} {s t : St} {o : Outcome}
    (h : Exec c p s o t) : ∀ M, Above M s → UGood (up g tr p M) o t := by
  induction h with
  | skip s | clo xs s => intro M hM; exact ⟨M, rfl, hM⟩
  | use_ok xs s hx =>
    intro M hM
    have : (xs.all fun x => M.testBit x || g.testBit x) = true := by
      rw [List.all_eq_true]
      intro x hxs
      rcases hx x hxs with h | h
      · simp [hM x h]
      · simp [hf.glob x h.1 h.2]
    simp only [up, this, if_true]
    exact ⟨M, rfl, hM⟩
  | use_exc | use_err | use_live | bind_exc | del_err | raise => intro M hM; trivial
  | bind_ok xs s =>
    intro M hM
    refine ⟨_, rfl, fun x hx => ?_⟩
    simp only [Nat.testBit_or, Bool.or_eq_true, mask_testBit]
    exact hx.imp (hM x) id
  | del_ok x s hx =>
    intro M hM
    simp only [up, hM x hx, if_true]
    refine ⟨_, rfl, fun y hy => ?_⟩
    simp only [diff_testBit, hM y hy.1, Bool.true_and, Nat.testBit_two_pow, Bool.not_eq_true', decide_eq_false_iff_not]
    exact fun h => hy.2 h.symm
  | @seq a b s t u o h1 h2 ih1 ih2 =>
    intro M hM
    obtain ⟨N, hN, hq⟩ := uFrom_ge (ih1 M hM) (up g tr b)
    have h := ih2 N hN
    simp only [up, hq]
    cases o <;> first | exact h | exact Ge.right h | (simp only [UGood, Bool.or_eq_true] at h ⊢; exact .inr h)
  | @seq_stop a s t o b hne h1 ih =>
    intro M hM
    have h := ih M hM
    simp only [up]
    cases o <;> first | exact absurd rfl hne | exact Ge.left h | exact h | (simp only [UGood, Bool.or_eq_true] at h ⊢; exact .inl h)
  | ite_left _ _ ih => intro M hM; exact (ih M hM).left
  | ite_right _ _ ih => intro M hM; exact (ih M hM).right
  | @ifv_left x a s o t b hx h1 ih =>
    intro M hM
    simp only [up]
    cases htr : tr x with
    | none => exact (ih M hM).left
    | some v =>
      have := hf.truth x v htr
      rw [hx] at this
      subst this
      exact ih M hM
  | @ifv_right x b s o t a hx h1 ih =>
    intro M hM
    simp only [up]
    cases htr : tr x with
    | none => exact (ih M hM).right
    | some v =>
      have := hf.truth x v htr
      rw [hx] at this
      subst this
      exact ih M hM
  | @loop_done e s o t b h1 ih =>
    intro M hM
    have h := ih (M ||| binds b) fun x hx => by simp only [Nat.testBit_or, hM x hx, Bool.true_or]
    simp only [up, uFrom]
    cases o <;> first | exact Ge.left h | exact h | (simp only [UGood, Bool.or_eq_true] at h ⊢; exact .inr h)
  | @loop_last b e s o t o' u ho h1 h2 ih1 ih2 =>
    intro M hM
    have h := ih1 (M ||| binds b) fun x hx => by simp only [Nat.testBit_or, hM x hx, Bool.true_or]
    have hn : Ge (join (up g tr b (M ||| binds b)).norm (up g tr b (M ||| binds b)).cont) t := by
      rcases ho with rfl | rfl
      · exact Ge.left h
      · exact Ge.right h
    obtain ⟨N, hN, hq⟩ := uFrom_ge hn (up g tr e)
    have h := ih2 N hN
    simp only [up, hq]
    cases o' <;> first | exact Ge.left h | exact h | (simp only [UGood, Bool.or_eq_true] at h ⊢; exact .inr h)
  | @loop_more k b e s o t o' u ho h1 h2 ih1 ih2 =>
    intro M hM
    have h := ih2 (M ||| binds b) (above_or h1 hM)
    simp only [up, or_or_self] at h ⊢
    exact h
  | @loop_brk k b s t e h1 ih =>
    intro M hM
    have h := ih (M ||| binds b) fun x hx => by simp only [Nat.testBit_or, hM x hx, Bool.true_or]
    simp only [up]
    exact Ge.right h
  | @loop_stop k b s o t e ho h1 ih =>
    intro M hM
    have h := ih (M ||| binds b) fun x hx => by simp only [Nat.testBit_or, hM x hx, Bool.true_or]
    simp only [up]
    rcases ho with rfl | rfl | ⟨x, rfl⟩
    · simp only [UGood, Bool.or_eq_true] at h ⊢
      exact .inl h
    · trivial
    · trivial
  | @try_norm b e s t o u hd h1 h2 ih1 ih2 =>
    intro M hM
    obtain ⟨N, hN, hq⟩ := uFrom_ge (ih1 M hM) (up g tr e)
    have h := ih2 N hN
    simp only [up, hq]
    cases o <;> first | exact Ge.left h | exact h | exact Ge.right (Ge.left h) |
      (simp only [UGood, Bool.or_eq_true] at h ⊢; exact .inr (.inl h))
  | @try_caught b hd s t o u e h1 h2 ih1 ih2 =>
    intro M hM
    have h := ih2 _ (above_or h1 hM)
    simp only [up]
    cases o <;> first | exact Ge.right h | exact h | exact Ge.right (Ge.right h) |
      (simp only [UGood, Bool.or_eq_true] at h ⊢; exact .inr (.inr h))
  | @try_stop b s t o hd e hne h1 ih =>
    intro M hM
    have h := ih M hM
    simp only [up]
    cases o <;> first | exact absurd rfl hne | exact Ge.left h | exact h | (simp only [UGood, Bool.or_eq_true] at h ⊢; exact .inl h)
  | @fin_norm b f s t o u h1 h2 ih1 ih2 =>
    intro M hM
    have h := ih1 M hM
    have hq : Ge (up g tr f (M ||| binds b)).norm u := ih2 _ (above_or h1 hM)
    have key : ∀ n, Ge n t → Ge (both n (up g tr f (M ||| binds b)).norm) u := by
      rintro n ⟨N, rfl, -⟩
      exact hq
    simp only [up]
    cases o <;> first | exact Ge.left (key _ h) | exact h | (simp only [UGood, Bool.or_eq_true] at h ⊢; exact .inl h)
  | @fin_stop b f s t o o' u hne hne' h1 h2 ih1 ih2 =>
    intro M hM
    have h := ih2 _ (above_or h1 hM)
    simp only [up]
    cases o' <;> first | exact Ge.right h | exact h | (simp only [UGood, Bool.or_eq_true] at h ⊢; exact .inr h)
  | fin_err _ _ ih => intro M hM; trivial
  | ret s => intro M hM; rfl
  | brk s | cont s => intro M hM; exact ⟨M, rfl, hM⟩

/-! ## Witnesses -/

/-- reading names in order: all found, or the first that is not found. `gl` are names certainly found outside, `gu` possibly. -/
def readTrace (gl gu M : ℕ) : List Nm → Option Outcome
  | [] => some .norm
  | x :: r =>
    if M.testBit x || gl.testBit x then readTrace gl gu M r
    else if gu.testBit x then none else some (.nameErr x)

/-- One run: branches are taken as in the list, loops are not entered, no other exception is raised. -/
def trace (gl gu : ℕ) (tr : Nm → Option Bool) : Stmt → List Bool → ℕ → Option (Outcome × List Bool × ℕ)
  | .skip, ch, M => some (.norm, ch, M)
  | .use xs, ch, M => (readTrace gl gu M xs).map fun o => (o, ch, M)
  | .bind xs, ch, M => some (.norm, ch, M ||| mask xs)
  | .del x, ch, M => if M.testBit x then some (.norm, ch, diff M (2 ^ x)) else some (.nameErr x, ch, M)
  | .clo _, ch, M => some (.norm, ch, M)
  | .seq a b, ch, M =>
    match trace gl gu tr a ch M with
    | some (.norm, ch', M') => trace gl gu tr b ch' M'
    | r => r
  | .ite a b, ch, M =>
    match ch with
    | [] => none
    | true :: ch' => trace gl gu tr a ch' M
    | false :: ch' => trace gl gu tr b ch' M
  | .ifv x a b, ch, M =>
    match tr x with
    | some true => trace gl gu tr a ch M
    | some false => trace gl gu tr b ch M
    | none => none
  | .loop .any _ e, ch, M => trace gl gu tr e ch M
  | .ret, ch, M => some (.ret, ch, M)
  | .raise, ch, M => some (.exc, ch, M)
  | .brk, ch, M => some (.brk, ch, M)
  | .cont, ch, M => some (.cont, ch, M)
  | _, _, _ => none

/-- the state in which exactly the names of the set are bound -/
def stOf (M : ℕ) (live : Nm → Prop) : St := ⟨fun x => M.testBit x = true, live⟩

structure TFits (gl gu : ℕ) (tr : Nm → Option Bool) (c : Ctx) : Prop where
  low : ∀ x, gl.testBit x = true → ¬ c.loc x ∧ c.glob x
  high : ∀ x, ¬ c.loc x → c.glob x → gu.testBit x = true
  truth : ∀ x b, tr x = some b → c.truth x = b

theorem readTrace_sound {gl gu : ℕ} {tr : Nm → Option Bool} {c : Ctx} (hf : TFits gl gu tr c) (M : ℕ) (live : Nm → Prop) :
    ∀ (xs pre : List Nm) (o : Outcome), (∀ y ∈ pre, Readable c (stOf M live) y) → readTrace gl gu M xs = some o →
      Exec c (.use (pre ++ xs)) (stOf M live) o (stOf M live) := by
  intro xs
  induction xs with
  | nil =>
    intro pre o hpre h
    simp only [readTrace, Option.some.injEq] at h
    subst h
    rw [List.append_nil]
    exact .use_ok _ _ hpre
  | cons x r ih =>
    intro pre o hpre h
    simp only [readTrace] at h
    split_ifs at h with h1 h2
    · have := ih (pre ++ [x]) o (by
        intro y hy
        rcases List.mem_append.1 hy with hy | hy
        · exact hpre y hy
        · rw [List.mem_singleton.1 hy]
          rcases Bool.or_eq_true_iff.1 h1 with h | h
          · exact .inl h
          · exact .inr (hf.low x h)) h
      rwa [List.append_assoc] at this
    · simp only [Option.some.injEq] at h
      subst h
      refine .use_err pre x r _ hpre ?_
      rintro (h | h)
      · exact h1 (by rw [Bool.or_eq_true]; exact .inl h)
      · exact h2 (hf.high x h.1 h.2)

theorem trace_sound {gl gu : ℕ} {tr : Nm → Option Bool} {c : Ctx} (hf : TFits gl gu tr c) (p : Stmt) :
    ∀ (ch : List Bool) (M : ℕ) (live : Nm → Prop) (o : Outcome) (ch' : List Bool) (M' : ℕ),
      trace gl gu tr p ch M = some (o, ch', M') → ∃ live', Exec c p (stOf M live) o (stOf M' live') := by
  induction p with
  | skip =>
    intro ch M live o ch' M' h
    simp only [trace, Option.some.injEq, Prod.mk.injEq] at h
    obtain ⟨rfl, -, rfl⟩ := h
    exact ⟨live, .skip _⟩
  | use xs =>
    intro ch M live o ch' M' h
    simp only [trace, Option.map_eq_some_iff, Prod.mk.injEq] at h
    obtain ⟨o', h, rfl, -, rfl⟩ := h
    exact ⟨live, readTrace_sound hf M live xs [] o' (by simp) h⟩
  | bind xs =>
    intro ch M live o ch' M' h
    simp only [trace, Option.some.injEq, Prod.mk.injEq] at h
    obtain ⟨rfl, -, rfl⟩ := h
    refine ⟨live, ?_⟩
    have := Exec.bind_ok (c := c) xs (stOf M live)
    have e : (⟨fun x => (stOf M live).bound x ∨ x ∈ xs, (stOf M live).live⟩ : St) = stOf (M ||| mask xs) live := by
      unfold stOf
      congr 1
      funext x
      simp only [Nat.testBit_or, Bool.or_eq_true, mask_testBit]
    rwa [e] at this
  | del x =>
    intro ch M live o ch' M' h
    simp only [trace] at h
    split_ifs at h with hx
    · simp only [Option.some.injEq, Prod.mk.injEq] at h
      obtain ⟨rfl, -, rfl⟩ := h
      refine ⟨live, ?_⟩
      have := Exec.del_ok (c := c) x (stOf M live) hx
      have e : (⟨fun y => (stOf M live).bound y ∧ y ≠ x, (stOf M live).live⟩ : St) = stOf (diff M (2 ^ x)) live := by
        unfold stOf
        congr 1
        funext y
        simp only [diff_testBit, Nat.testBit_two_pow, Bool.and_eq_true, Bool.not_eq_true', decide_eq_false_iff_not]
        exact propext ⟨fun h => ⟨h.1, fun h' => h.2 h'.symm⟩, fun h => ⟨h.1, fun h' => h.2 h'.symm⟩⟩
      rwa [e] at this
    · simp only [Option.some.injEq, Prod.mk.injEq] at h
      obtain ⟨rfl, -, rfl⟩ := h
      exact ⟨live, .del_err x _ hx⟩
  | clo xs =>
    intro ch M live o ch' M' h
    simp only [trace, Option.some.injEq, Prod.mk.injEq] at h
    obtain ⟨rfl, -, rfl⟩ := h
    exact ⟨_, .clo xs _⟩
  | seq a b iha ihb =>
    intro ch M live o ch' M' h
    simp only [trace] at h
    cases ha : trace gl gu tr a ch M with
    | none => rw [ha] at h; simp at h
    | some r =>
      obtain ⟨o1, ch1, M1⟩ := r
      rw [ha] at h
      obtain ⟨l1, h1⟩ := iha ch M live o1 ch1 M1 ha
      by_cases hn : o1 = .norm
      · subst hn
        obtain ⟨l2, h2⟩ := ihb ch1 M1 l1 o ch' M' h
        exact ⟨l2, .seq h1 h2⟩
      · have h' : some (o1, ch1, M1) = some (o, ch', M') := by
          cases o1 <;> first | exact absurd rfl hn | exact h
        simp only [Option.some.injEq, Prod.mk.injEq] at h'
        obtain ⟨rfl, -, rfl⟩ := h'
        exact ⟨l1, .seq_stop b hn h1⟩
  | ite a b iha ihb =>
    intro ch M live o ch' M' h
    simp only [trace] at h
    rcases ch with _ | ⟨v, ch⟩
    · simp at h
    · cases v with
      | true => obtain ⟨l, hl⟩ := iha ch M live o ch' M' h; exact ⟨l, .ite_left b hl⟩
      | false => obtain ⟨l, hl⟩ := ihb ch M live o ch' M' h; exact ⟨l, .ite_right a hl⟩
  | ifv x a b iha ihb =>
    intro ch M live o ch' M' h
    simp only [trace] at h
    cases htr : tr x with
    | none => rw [htr] at h; simp at h
    | some v =>
      rw [htr] at h
      cases v with
      | true => obtain ⟨l, hl⟩ := iha ch M live o ch' M' h; exact ⟨l, .ifv_left b (hf.truth x _ htr) hl⟩
      | false => obtain ⟨l, hl⟩ := ihb ch M live o ch' M' h; exact ⟨l, .ifv_right a (hf.truth x _ htr) hl⟩
  | loop k b e ihb ihe =>
    intro ch M live o ch' M' h
    cases k with
    | any => obtain ⟨l, hl⟩ := ihe ch M live o ch' M' h; exact ⟨l, .loop_done b hl⟩
    | forever => simp [trace] at h
    | once => simp [trace] at h
  | tryE | fin => intro ch M live o ch' M' h; simp [trace] at h
  | ret =>
    intro ch M live o ch' M' h
    simp only [trace, Option.some.injEq, Prod.mk.injEq] at h
    obtain ⟨rfl, -, rfl⟩ := h
    exact ⟨live, .ret _⟩
  | raise =>
    intro ch M live o ch' M' h
    simp only [trace, Option.some.injEq, Prod.mk.injEq] at h
    obtain ⟨rfl, -, rfl⟩ := h
    exact ⟨live, .raise _⟩
  | brk =>
    intro ch M live o ch' M' h
    simp only [trace, Option.some.injEq, Prod.mk.injEq] at h
    obtain ⟨rfl, -, rfl⟩ := h
    exact ⟨live, .brk _⟩
  | cont =>
    intro ch M live o ch' M' h
    simp only [trace, Option.some.injEq, Prod.mk.injEq] at h
    obtain ⟨rfl, -, rfl⟩ := h
    exact ⟨live, .cont _⟩

end Verif.Names
