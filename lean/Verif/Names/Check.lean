import Verif.Names.Model

/-!
# A checker for names, and its soundness

`chk` computes names that are certainly bound after a statement and refuses statements that could read an unbound name. Sets of
names are natural numbers (bit `x` for the name `x`), which the kernel evaluates fast.
-/

namespace Verif.Names

/-! ## Sets of names -/

/-- the set of the names of a list -/
def mask : List Nm → ℕ
  | [] => 0
  | x :: r => 2 ^ x ||| mask r

theorem mask_testBit (xs : List Nm) (x : Nm) : (mask xs).testBit x = true ↔ x ∈ xs := by
  induction xs with
  | nil => simp [mask]
  | cons y r ih =>
    rw [mask, Nat.testBit_or, Bool.or_eq_true, ih, List.mem_cons, Nat.testBit_two_pow, decide_eq_true_eq]
    exact or_congr ⟨Eq.symm, Eq.symm⟩ Iff.rfl

/-- difference of sets -/
def diff (a b : ℕ) : ℕ := a ^^^ (a &&& b)

theorem diff_testBit (a b : ℕ) (x : Nm) : (diff a b).testBit x = (a.testBit x && !b.testBit x) := by
  simp only [diff, Nat.testBit_xor, Nat.testBit_and]
  cases a.testBit x <;> cases b.testBit x <;> rfl

theorem diff_diff (a b : ℕ) : diff (diff a b) b = diff a b := by
  refine Nat.eq_of_testBit_eq fun x => ?_
  simp only [diff_testBit]
  cases a.testBit x <;> cases b.testBit x <;> rfl

/-- intersection of sets, `none` stands for the set of all names (no run arrives here) -/
def meet : Option ℕ → Option ℕ → Option ℕ
  | none, b => b
  | a, none => a
  | some a, some b => some (a &&& b)

/-- union in the same sense -/
def join : Option ℕ → Option ℕ → Option ℕ
  | none, b => b
  | a, none => a
  | some a, some b => some (a ||| b)

/-- every name of the set is bound -/
def Below (B : ℕ) (s : St) : Prop := ∀ x, B.testBit x = true → s.bound x

/-- some run arrives here and every name of the set is bound -/
def Le (r : Option ℕ) (s : St) : Prop := ∃ N, r = some N ∧ Below N s

theorem Le.left {a b : Option ℕ} {s : St} (h : Le a s) : Le (meet a b) s := by
  obtain ⟨N, rfl, hN⟩ := h
  cases b with
  | none => exact ⟨N, rfl, hN⟩
  | some M => exact ⟨N &&& M, rfl, fun x hx => hN x (by simp only [Nat.testBit_and, Bool.and_eq_true] at hx; exact hx.1)⟩

theorem Le.right {a b : Option ℕ} {s : St} (h : Le b s) : Le (meet a b) s := by
  obtain ⟨M, rfl, hM⟩ := h
  cases a with
  | none => exact ⟨M, rfl, hM⟩
  | some N => exact ⟨N &&& M, rfl, fun x hx => hM x (by simp only [Nat.testBit_and, Bool.and_eq_true] at hx; exact hx.2)⟩

/-! ## The checker -/

/-- the names deleted in a statement -/
def dels : Stmt → ℕ
  | .del x => 2 ^ x
  | .seq a b => dels a ||| dels b
  | .ite a b => dels a ||| dels b
  | .ifv _ a b => dels a ||| dels b
  | .loop _ a b => dels a ||| dels b
  | .tryE a b d => dels a ||| (dels b ||| dels d)
  | .fin a b => dels a ||| dels b
  | _ => 0

/-- names found outside of the function, names read by function objects, known truth values of parameters -/
structure Cfg where
  g : ℕ
  prot : ℕ
  tr : Nm → Option Bool

/-- names certainly bound if the statement ends normally, by `break`, by `continue` -/
structure Res where
  norm : Option ℕ
  brk : Option ℕ
  cont : Option ℕ

def Res.meet (a b : Res) : Res := ⟨Names.meet a.norm b.norm, Names.meet a.brk b.brk, Names.meet a.cont b.cont⟩

/-- a part that is not reached -/
def Res.never : Res := ⟨none, none, none⟩

/-- continue from a set of names if it is reached -/
def thenFrom (n : Option ℕ) (f : ℕ → Option Res) : Option Res :=
  match n with
  | none => some .never
  | some N => f N

/-- names bound after a `finally` block -/
def after (n f : Option ℕ) (d : ℕ) : Option ℕ :=
  match n, f with
  | some N, some F => some (diff N d ||| F)
  | _, _ => none

def chk (c : Cfg) : Stmt → ℕ → Option Res
  | .skip, B => some ⟨some B, none, none⟩
  | .use xs, B => if xs.all fun x => B.testBit x || c.g.testBit x then some ⟨some B, none, none⟩ else none
  | .bind xs, B => some ⟨some (B ||| mask xs), none, none⟩
  | .del x, B => if B.testBit x && !c.prot.testBit x then some ⟨some (diff B (2 ^ x)), none, none⟩ else none
  | .clo xs, B => if xs.all fun x => (B.testBit x || c.g.testBit x) && c.prot.testBit x then some ⟨some B, none, none⟩ else none
  | .seq a b, B => do
    let r ← chk c a B
    let q ← thenFrom r.norm (chk c b)
    some ⟨q.norm, meet r.brk q.brk, meet r.cont q.cont⟩
  | .ite a b, B => do
    let r ← chk c a B
    let q ← chk c b B
    some (r.meet q)
  | .ifv x a b, B =>
    match c.tr x with
    | some true => chk c a B
    | some false => chk c b B
    | none => do
      let r ← chk c a B
      let q ← chk c b B
      some (r.meet q)
  | .loop k b e, B => do
    let H := diff B (dels b)
    let r ← chk c b H
    let q ← thenFrom (match k with
      | .any => some H
      | .forever => none
      | .once => meet r.norm r.cont) (chk c e)
    some ⟨meet q.norm r.brk, q.brk, q.cont⟩
  | .tryE b h e, B => do
    let r ← chk c b B
    let p ← chk c h (diff B (dels b))
    let q ← thenFrom r.norm (chk c e)
    some ⟨meet q.norm p.norm, meet r.brk (meet q.brk p.brk), meet r.cont (meet q.cont p.cont)⟩
  | .fin b f, B => do
    let r ← chk c b B
    let q ← chk c f (diff B (dels b))
    some ⟨after r.norm q.norm (dels f), meet (after r.brk q.norm (dels f)) q.brk, meet (after r.cont q.norm (dels f)) q.cont⟩
  | .ret, _ => some .never
  | .raise, _ => some .never
  | .brk, B => some ⟨none, some B, none⟩
  | .cont, B => some ⟨none, none, some B⟩

/-! ## Soundness -/

/-- the names that function objects may read are bound -/
def LiveOk (g : Cfg) (c : Ctx) (s : St) : Prop := ∀ x, s.live x → Readable c s x ∧ g.prot.testBit x = true

/-- the configuration of the checker fits to the context -/
structure Fits (g : Cfg) (c : Ctx) : Prop where
  glob : ∀ x, g.g.testBit x = true → ¬ c.loc x ∧ c.glob x
  truth : ∀ x b, g.tr x = some b → c.truth x = b

/-- a set of names stays bound except for those deleted -/
theorem Below.diff_or {B d d' : ℕ} {s : St} (h : Below (diff B d) s) : Below (diff B (d ||| d')) s := by
  intro x hx
  refine h x ?_
  simp only [diff_testBit, Nat.testBit_or, Bool.and_eq_true, Bool.not_eq_true', Bool.or_eq_false_iff] at hx ⊢
  exact ⟨hx.1, hx.2.1⟩

theorem Below.diff_or' {B d d' : ℕ} {s : St} (h : Below (diff B d') s) : Below (diff B (d ||| d')) s := by
  rw [show d ||| d' = d' ||| d from Nat.or_comm _ _]
  exact h.diff_or

theorem Below.diff {B d : ℕ} {s : St} (h : Below B s) : Below (diff B d) s := by
  intro x hx
  simp only [diff_testBit, Bool.and_eq_true] at hx
  exact h x hx.1

theorem below_diff_diff {B d d' : ℕ} {s : St} (h : Below (Names.diff (Names.diff B d) d') s) : Below (Names.diff B (d ||| d')) s := by
  intro x hx
  refine h x ?_
  simp only [diff_testBit, Nat.testBit_or, Bool.and_eq_true, Bool.not_eq_true', Bool.or_eq_false_iff] at hx ⊢
  exact ⟨⟨hx.1, hx.2.1⟩, hx.2.2⟩

theorem readable_of_check {g : Cfg} {c : Ctx} (hf : Fits g c) {B : ℕ} {s : St} (hB : Below B s) {x : Nm}
    (h : (B.testBit x || g.g.testBit x) = true) : Readable c s x := by
  rcases Bool.or_eq_true_iff.1 h with h | h
  · exact .inl (hB x h)
  · exact .inr (hf.glob x h)

/-- names stay bound except for those deleted -/
theorem exec_keeps {c : Ctx} {p : Stmt} {s t : St} {o : Outcome} (h : Exec c p s o t) :
    ∀ x, s.bound x → (dels p).testBit x = false → t.bound x := by
  induction h with
  | skip | use_ok | use_exc | use_err | use_live | del_err | clo | ret | raise | brk | cont => intro x hx _; exact hx
  | bind_ok | bind_exc => intro x hx _; exact .inl hx
  | del_ok y s hy =>
    intro x hx hd
    refine ⟨hx, ?_⟩
    rintro rfl
    simp [dels] at hd
  | seq _ _ ih1 ih2 =>
    intro x hx hd
    simp only [dels, Nat.testBit_or, Bool.or_eq_false_iff] at hd
    exact ih2 x (ih1 x hx hd.1) hd.2
  | seq_stop _ _ _ ih | ite_left _ _ ih | ifv_left _ _ _ ih | loop_brk _ _ ih | loop_stop _ _ _ ih | fin_err _ _ ih =>
    intro x hx hd
    simp only [dels, Nat.testBit_or, Bool.or_eq_false_iff] at hd
    exact ih x hx hd.1
  | ite_right _ _ ih | ifv_right _ _ _ ih | loop_done _ _ ih =>
    intro x hx hd
    simp only [dels, Nat.testBit_or, Bool.or_eq_false_iff] at hd
    exact ih x hx hd.2
  | loop_last _ _ _ ih1 ih2 =>
    intro x hx hd
    simp only [dels, Nat.testBit_or, Bool.or_eq_false_iff] at hd
    exact ih2 x (ih1 x hx hd.1) hd.2
  | loop_more _ _ _ ih1 ih2 =>
    intro x hx hd
    have hd' := hd
    simp only [dels, Nat.testBit_or, Bool.or_eq_false_iff] at hd'
    exact ih2 x (ih1 x hx hd'.1) hd
  | try_norm _ _ _ ih1 ih2 =>
    intro x hx hd
    simp only [dels, Nat.testBit_or, Bool.or_eq_false_iff] at hd
    exact ih2 x (ih1 x hx hd.1) hd.2.2
  | try_caught _ _ _ ih1 ih2 =>
    intro x hx hd
    simp only [dels, Nat.testBit_or, Bool.or_eq_false_iff] at hd
    exact ih2 x (ih1 x hx hd.1) hd.2.1
  | try_stop _ _ _ _ ih =>
    intro x hx hd
    simp only [dels, Nat.testBit_or, Bool.or_eq_false_iff] at hd
    exact ih x hx hd.1
  | fin_norm _ _ ih1 ih2 | fin_stop _ _ _ _ ih1 ih2 =>
    intro x hx hd
    simp only [dels, Nat.testBit_or, Bool.or_eq_false_iff] at hd
    exact ih2 x (ih1 x hx hd.1) hd.2

theorem below_keeps {c : Ctx} {p : Stmt} {s t : St} {o : Outcome} (h : Exec c p s o t) {B : ℕ} (hB : Below B s) :
    Below (diff B (dels p)) t := by
  intro x hx
  simp only [diff_testBit, Bool.and_eq_true, Bool.not_eq_true'] at hx
  exact exec_keeps h x (hB x hx.1) hx.2

theorem below_after {c : Ctx} {f : Stmt} {t u : St} (h : Exec c f t .norm u) {N F : ℕ} (hN : Below N t) (hF : Below F u) :
    Below (diff N (dels f) ||| F) u := by
  intro x hx
  simp only [Nat.testBit_or, Bool.or_eq_true] at hx
  rcases hx with hx | hx
  · exact below_keeps h hN x hx
  · exact hF x hx

/-- what the checker guarantees for one way to end -/
def Good (g : Cfg) (c : Ctx) (r : Res) (o : Outcome) (t : St) : Prop :=
  LiveOk g c t ∧ match o with
    | .norm => Le r.norm t
    | .brk => Le r.brk t
    | .cont => Le r.cont t
    | .ret => True
    | .exc => True
    | .nameErr _ => False

theorem chk_loop {g : Cfg} {k : Kind} {b e : Stmt} {B : ℕ} {r : Res} (h : chk g (.loop k b e) B = some r) :
    ∃ p q, chk g b (diff B (dels b)) = some p ∧ thenFrom (match k with
      | .any => some (diff B (dels b))
      | .forever => none
      | .once => meet p.norm p.cont) (chk g e) = some q ∧ r = ⟨meet q.norm p.brk, q.brk, q.cont⟩ := by
  simp only [chk, Option.bind_eq_bind, Option.bind_eq_some_iff, Option.some.injEq] at h
  obtain ⟨p, hp, q, hq, rfl⟩ := h
  exact ⟨p, q, hp, hq, rfl⟩

theorem thenFrom_le {n : Option ℕ} {s : St} (h : Le n s) {f : ℕ → Option Res} {q : Res} (hq : thenFrom n f = some q) :
    ∃ N, Below N s ∧ f N = some q := by
  obtain ⟨N, rfl, hN⟩ := h
  exact ⟨N, hN, hq⟩

theorem sound {g : Cfg} {c : Ctx} (hf : Fits g c) {p : Stmt} {s t : St} {o : Outcome} (h : Exec c p s o t) :
    ∀ (B : ℕ) (r : Res), chk g p B = some r → Below B s → LiveOk g c s → Good g c r o t := by
  induction h with
  | skip s =>
    intro B r hr hB hl
    simp only [chk, Option.some.injEq] at hr
    subst hr
    exact ⟨hl, B, rfl, hB⟩
  | use_ok xs s hx =>
    intro B r hr hB hl
    simp only [chk] at hr
    split_ifs at hr
    cases hr
    exact ⟨hl, B, rfl, hB⟩
  | use_exc xs s => intro B r hr hB hl; exact ⟨hl, trivial⟩
  | use_err pre x post s hy hx =>
    intro B r hr hB hl
    simp only [chk] at hr
    split_ifs at hr with hall
    exact absurd (readable_of_check hf hB (List.all_eq_true.1 hall x (by simp))) hx
  | use_live xs s x hx hn => intro B r hr hB hl; exact absurd (hl x hx).1 hn
  | bind_ok xs s =>
    intro B r hr hB hl
    simp only [chk, Option.some.injEq] at hr
    subst hr
    refine ⟨fun x hx => ⟨?_, (hl x hx).2⟩, _, rfl, fun x hx => ?_⟩
    · rcases (hl x hx).1 with h | h
      · exact .inl (.inl h)
      · exact .inr h
    · simp only [Nat.testBit_or, Bool.or_eq_true, mask_testBit] at hx
      exact hx.imp (hB x) id
  | bind_exc xs ys s hy =>
    intro B r hr hB hl
    refine ⟨fun x hx => ⟨?_, (hl x hx).2⟩, trivial⟩
    rcases (hl x hx).1 with h | h
    · exact .inl (.inl h)
    · exact .inr h
  | del_ok x s hx =>
    intro B r hr hB hl
    simp only [chk] at hr
    split_ifs at hr with hc
    cases hr
    simp only [Bool.and_eq_true, Bool.not_eq_true'] at hc
    refine ⟨fun y hy => ⟨?_, (hl y hy).2⟩, _, rfl, fun y hy => ?_⟩
    · have hne : y ≠ x := by
        rintro rfl
        rw [(hl y hy).2] at hc
        exact absurd hc.2 (by simp)
      rcases (hl y hy).1 with h | h
      · exact .inl ⟨h, hne⟩
      · exact .inr h
    · simp only [diff_testBit, Bool.and_eq_true, Bool.not_eq_true', Nat.testBit_two_pow, decide_eq_false_iff_not] at hy
      exact ⟨hB y hy.1, fun h => hy.2 h.symm⟩
  | del_err x s hx =>
    intro B r hr hB hl
    simp only [chk] at hr
    split_ifs at hr with hc
    simp only [Bool.and_eq_true] at hc
    exact absurd (hB x hc.1) hx
  | clo xs s =>
    intro B r hr hB hl
    simp only [chk] at hr
    split_ifs at hr with hall
    cases hr
    refine ⟨fun x hx => ?_, B, rfl, hB⟩
    rcases hx with hx | hx
    · exact hl x hx
    · have := List.all_eq_true.1 hall x hx
      simp only [Bool.and_eq_true] at this
      exact ⟨readable_of_check hf hB this.1, this.2⟩
  | @seq a b s t u o h1 h2 ih1 ih2 =>
    intro B r hr hB hl
    simp only [chk, Option.bind_eq_bind, Option.bind_eq_some_iff, Option.some.injEq] at hr
    obtain ⟨p, hp, q, hq, rfl⟩ := hr
    obtain ⟨hl1, hn⟩ := ih1 B p hp hB hl
    obtain ⟨N, hN, hq'⟩ := thenFrom_le hn hq
    obtain ⟨hl2, h⟩ := ih2 N q hq' hN hl1
    refine ⟨hl2, ?_⟩
    cases o <;> first | exact h | exact h.right
  | @seq_stop a s t o b hne h1 ih =>
    intro B r hr hB hl
    simp only [chk, Option.bind_eq_bind, Option.bind_eq_some_iff, Option.some.injEq] at hr
    obtain ⟨p, hp, q, hq, rfl⟩ := hr
    obtain ⟨hl1, h⟩ := ih B p hp hB hl
    refine ⟨hl1, ?_⟩
    cases o <;> first | exact absurd rfl hne | exact h.left | exact h
  | @ite_left a s o t b h1 ih =>
    intro B r hr hB hl
    simp only [chk, Option.bind_eq_bind, Option.bind_eq_some_iff, Option.some.injEq] at hr
    obtain ⟨p, hp, q, hq, rfl⟩ := hr
    obtain ⟨hl1, h⟩ := ih B p hp hB hl
    refine ⟨hl1, ?_⟩
    cases o <;> first | exact h.left | exact h
  | @ite_right b s o t a h1 ih =>
    intro B r hr hB hl
    simp only [chk, Option.bind_eq_bind, Option.bind_eq_some_iff, Option.some.injEq] at hr
    obtain ⟨p, hp, q, hq, rfl⟩ := hr
    obtain ⟨hl1, h⟩ := ih B q hq hB hl
    refine ⟨hl1, ?_⟩
    cases o <;> first | exact h.right | exact h
  | @ifv_left x a s o t b hx h1 ih =>
    intro B r hr hB hl
    simp only [chk] at hr
    cases htr : g.tr x with
    | none =>
      rw [htr] at hr
      simp only [Option.bind_eq_bind, Option.bind_eq_some_iff, Option.some.injEq] at hr
      obtain ⟨p, hp, q, hq, rfl⟩ := hr
      obtain ⟨hl1, h⟩ := ih B p hp hB hl
      refine ⟨hl1, ?_⟩
      cases o <;> first | exact h.left | exact h
    | some v =>
      rw [htr] at hr
      have := hf.truth x v htr
      rw [hx] at this
      subst this
      exact ih B r hr hB hl
  | @ifv_right x b s o t a hx h1 ih =>
    intro B r hr hB hl
    simp only [chk] at hr
    cases htr : g.tr x with
    | none =>
      rw [htr] at hr
      simp only [Option.bind_eq_bind, Option.bind_eq_some_iff, Option.some.injEq] at hr
      obtain ⟨p, hp, q, hq, rfl⟩ := hr
      obtain ⟨hl1, h⟩ := ih B q hq hB hl
      refine ⟨hl1, ?_⟩
      cases o <;> first | exact h.right | exact h
    | some v =>
      rw [htr] at hr
      have := hf.truth x v htr
      rw [hx] at this
      subst this
      exact ih B r hr hB hl
  | @loop_done e s o t b h1 ih =>
    intro B r hr hB hl
    obtain ⟨p, q, hp, hq, rfl⟩ := chk_loop hr
    obtain ⟨hl1, h⟩ := ih _ q hq hB.diff hl
    refine ⟨hl1, ?_⟩
    cases o <;> first | exact h.left | exact h
  | @loop_last b e s o t o' u ho h1 h2 ih1 ih2 =>
    intro B r hr hB hl
    obtain ⟨p, q, hp, hq, rfl⟩ := chk_loop hr
    obtain ⟨hl1, h⟩ := ih1 _ p hp hB.diff hl
    have hn : Le (meet p.norm p.cont) t := by
      rcases ho with rfl | rfl
      · exact h.left
      · exact h.right
    obtain ⟨N, hN, hq'⟩ := thenFrom_le hn hq
    obtain ⟨hl2, h⟩ := ih2 N q hq' hN hl1
    refine ⟨hl2, ?_⟩
    cases o' <;> first | exact h.left | exact h
  | @loop_more k b e s o t o' u ho h1 h2 ih1 ih2 =>
    intro B r hr hB hl
    have hr' := hr
    obtain ⟨p, q, hp, hq, -⟩ := chk_loop hr'
    obtain ⟨hl1, -⟩ := ih1 _ p hp hB.diff hl
    have hB' : Below (diff B (dels b)) t := below_keeps h1 hB
    refine ih2 (diff B (dels b)) r ?_ hB' hl1
    simp only [chk, diff_diff] at hr ⊢
    exact hr
  | @loop_brk k b s t e h1 ih =>
    intro B r hr hB hl
    obtain ⟨p, q, hp, hq, rfl⟩ := chk_loop hr
    obtain ⟨hl1, h⟩ := ih _ p hp hB.diff hl
    exact ⟨hl1, h.right⟩
  | @loop_stop k b s o t e ho h1 ih =>
    intro B r hr hB hl
    obtain ⟨p, q, hp, hq, rfl⟩ := chk_loop hr
    obtain ⟨hl1, h⟩ := ih _ p hp hB.diff hl
    refine ⟨hl1, ?_⟩
    rcases ho with rfl | rfl | ⟨x, rfl⟩ <;> exact h
  | @try_norm b e s t o u hd h1 h2 ih1 ih2 =>
    intro B r hr hB hl
    simp only [chk, Option.bind_eq_bind, Option.bind_eq_some_iff, Option.some.injEq] at hr
    obtain ⟨p, hp, p', hp', q, hq, rfl⟩ := hr
    obtain ⟨hl1, hn⟩ := ih1 B p hp hB hl
    obtain ⟨N, hN, hq'⟩ := thenFrom_le hn hq
    obtain ⟨hl2, h⟩ := ih2 N q hq' hN hl1
    refine ⟨hl2, ?_⟩
    cases o <;> first | exact h.left | exact h.left.right | exact h
  | @try_caught b hd s t o u e h1 h2 ih1 ih2 =>
    intro B r hr hB hl
    simp only [chk, Option.bind_eq_bind, Option.bind_eq_some_iff, Option.some.injEq] at hr
    obtain ⟨p, hp, p', hp', q, hq, rfl⟩ := hr
    obtain ⟨hl1, -⟩ := ih1 B p hp hB hl
    obtain ⟨hl2, h⟩ := ih2 _ p' hp' (below_keeps h1 hB) hl1
    refine ⟨hl2, ?_⟩
    cases o <;> first | exact h.right | exact h.right.right | exact h
  | @try_stop b s t o hd e hne h1 ih =>
    intro B r hr hB hl
    simp only [chk, Option.bind_eq_bind, Option.bind_eq_some_iff, Option.some.injEq] at hr
    obtain ⟨p, hp, p', hp', q, hq, rfl⟩ := hr
    obtain ⟨hl1, h⟩ := ih B p hp hB hl
    refine ⟨hl1, ?_⟩
    cases o <;> first | exact absurd rfl hne | exact h.left | exact h
  | @fin_norm b f s t o u h1 h2 ih1 ih2 =>
    intro B r hr hB hl
    simp only [chk, Option.bind_eq_bind, Option.bind_eq_some_iff, Option.some.injEq] at hr
    obtain ⟨p, hp, q, hq, rfl⟩ := hr
    obtain ⟨hl1, h⟩ := ih1 B p hp hB hl
    obtain ⟨hl2, F, hF, hFu⟩ := ih2 _ q hq (below_keeps h1 hB) hl1
    refine ⟨hl2, ?_⟩
    have key : ∀ n, Le n t → Le (after n q.norm (dels f)) u := by
      rintro n ⟨N, rfl, hN⟩
      exact ⟨_, by rw [hF]; rfl, below_after h2 hN hFu⟩
    cases o <;> first | exact key _ h | exact (key _ h).left | exact h
  | @fin_stop b f s t o o' u hne hne' h1 h2 ih1 ih2 =>
    intro B r hr hB hl
    simp only [chk, Option.bind_eq_bind, Option.bind_eq_some_iff, Option.some.injEq] at hr
    obtain ⟨p, hp, q, hq, rfl⟩ := hr
    obtain ⟨hl1, -⟩ := ih1 B p hp hB hl
    obtain ⟨hl2, h⟩ := ih2 _ q hq (below_keeps h1 hB) hl1
    refine ⟨hl2, ?_⟩
    cases o' <;> first | exact absurd rfl hne' | exact h.right | exact h
  | @fin_err b s x t f h1 ih =>
    intro B r hr hB hl
    simp only [chk, Option.bind_eq_bind, Option.bind_eq_some_iff, Option.some.injEq] at hr
    obtain ⟨p, hp, q, hq, rfl⟩ := hr
    exact absurd (ih B p hp hB hl).2 id
  | ret s => intro B r hr hB hl; exact ⟨hl, trivial⟩
  | raise s => intro B r hr hB hl; exact ⟨hl, trivial⟩
  | brk s =>
    intro B r hr hB hl
    simp only [chk, Option.some.injEq] at hr
    subst hr
    exact ⟨hl, B, rfl, hB⟩
  | cont s =>
    intro B r hr hB hl
    simp only [chk, Option.some.injEq] at hr
    subst hr
    exact ⟨hl, B, rfl, hB⟩

end Verif.Names
