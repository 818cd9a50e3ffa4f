import Verif.Eliashberg.Start
import Verif.Eliashberg.Props

/-!
# C107: the Eliashberg solver on several ranks and its start vector
-/

set_option linter.unusedSectionVars false

noncomputable section

namespace Verif.Eliashberg

open Complex Verif.Parallel Verif.Fourier Verif.Bubble Verif.Gw

variable {d : ℕ} {n : Fin d → ℕ} [∀ i, NeZero (n i)] {o : Type*} [Fintype o] [DecidableEq o]

/-! ## What a collective product computes -/

/-- the rank that owns a mesh point -/
def owner {P : Type*} [DecidableEq P] (ranks : ℕ) (mesh : List P) (p : P) : ℕ :=
  ((List.range ranks).find? fun r => decide (p ∈ mpiView mesh ranks r)).getD 0

theorem owner_eq {P : Type*} [DecidableEq P] {ranks : ℕ} {mesh : List P} (hm : mesh.Nodup) {p : P} {r : ℕ}
    (hr : r < ranks) (hp : p ∈ mpiView mesh ranks r) : owner ranks mesh p = r := by
  have hmem : p ∈ mesh := by
    rw [← C01_mpiView_concat mesh ranks (by omega)]
    exact List.mem_flatMap.2 ⟨r, List.mem_range.2 hr, hp⟩
  obtain ⟨r', hr', hpr', huniq⟩ := C01_mpiView_exactly_one_rank mesh hm ranks (by omega) p hmem
  have hrr : r = r' := huniq r hr hp
  subst hrr
  unfold owner
  cases h : (List.range ranks).find? fun s => decide (p ∈ mpiView mesh ranks s) with
  | none =>
    rw [List.find?_eq_none] at h
    exact absurd (by simpa using hp) (h r (List.mem_range.2 hr))
  | some s =>
    have hs := List.find?_some h
    have hs' := List.mem_of_find?_eq_some h
    exact huniq s (List.mem_range.1 hs') (by simpa using hs)

/-- the vector the ranks hold together: every entry is taken from the rank that owns the mesh point -/
def mixed (ranks N : ℕ) (lat : List (Lat n)) (delta : ℕ → ℤ → Lat n → o → o → ℂ) : ℤ → Lat n → o → o → ℂ :=
  fun w k => delta (owner ranks (gapMesh N lat) (w, k)) w k

theorem gDeltaGSpmd_eq (ranks N Ng : ℕ) {lat : List (Lat n)} (hc : Complete lat) (g : ℤ → Lat n → o → o → ℂ)
    (delta : ℕ → ℤ → Lat n → o → o → ℂ) :
    gDeltaGSpmd ranks N Ng lat g delta = gDeltaG ranks N Ng lat g (mixed ranks N lat delta) := by
  unfold gDeltaGSpmd gDeltaG distributedAssign
  split_ifs
  · rfl
  · congr 1
    funext p
    unfold allReduce rankAssign
    refine Finset.sum_congr rfl fun r hr => ?_
    dsimp only
    rw [rankAssign_apply, rankAssign_apply]
    by_cases hp : p ∈ mpiView (gapMesh N lat) ranks r
    · rw [if_pos hp, if_pos hp]
      unfold mixed
      rw [show owner ranks (gapMesh N lat) (p.1, p.2) = r from
        owner_eq (gapMesh_nodup N hc) (Finset.mem_range.1 hr) hp]
    · rw [if_neg hp, if_neg hp]

/-- C107: a product called with different vectors on the ranks returns, on every rank, the product of the vector
assembled from the pieces the ranks own.  It is not a function of the vector of the calling rank. -/
theorem C107_mixed (ranks N Ng NG L LG : ℕ) (beta : ℝ) (T : Transforms) {lat : List (Lat n)} (hc : Complete lat)
    (gamma : ℤ → Lat n → T4 o) (gammaDyn : ℕ → Lat n → T4 o) (gammaConst : Lat n → T4 o)
    (g : ℤ → Lat n → o → o → ℂ) (delta : ℕ → ℤ → Lat n → o → o → ℂ) :
    eliashbergProductSpmd ranks N Ng NG beta lat gamma g delta
        = eliashbergProduct ranks N Ng NG beta lat gamma g (mixed ranks N lat delta) ∧
      eliashbergProductFFTSpmd ranks N Ng L LG T lat gammaDyn gammaConst g delta
        = eliashbergProductFFT ranks N Ng L LG T lat gammaDyn gammaConst g (mixed ranks N lat delta) := by
  constructor
  · unfold eliashbergProductSpmd eliashbergProduct
    rw [gDeltaGSpmd_eq ranks N Ng hc]
    cases gDeltaG ranks N Ng lat g (mixed ranks N lat delta) <;> rfl
  · unfold eliashbergProductFFTSpmd eliashbergProductFFT
    rw [gDeltaGSpmd_eq ranks N Ng hc]
    cases gDeltaG ranks N Ng lat g (mixed ranks N lat delta) with
    | error e => rfl
    | ok F =>
      dsimp only
      cases dynamicGammaF ranks L LG lat gammaDyn (fTr T F) <;> rfl

theorem gDeltaG_ranks {ranks : ℕ} (hr : 0 < ranks) (N Ng : ℕ) {lat : List (Lat n)} (hc : Complete lat)
    (g delta : ℤ → Lat n → o → o → ℂ) : gDeltaG ranks N Ng lat g delta = gDeltaG 1 N Ng lat g delta := by
  unfold gDeltaG
  rw [(C02_rank_independent (C := Unit) ranks 1 hr one_pos (gapMesh N lat) (gapMesh_nodup N hc) _ fun _ _ => 0).1]

theorem eliashbergProduct_ranks {ranks : ℕ} (hr : 0 < ranks) (N Ng NG : ℕ) (beta : ℝ) {lat : List (Lat n)}
    (hc : Complete lat) (gamma : ℤ → Lat n → T4 o) (g delta : ℤ → Lat n → o → o → ℂ) :
    eliashbergProduct ranks N Ng NG beta lat gamma g delta = eliashbergProduct 1 N Ng NG beta lat gamma g delta := by
  unfold eliashbergProduct
  rw [gDeltaG_ranks hr N Ng hc]
  cases gDeltaG 1 N Ng lat g delta with
  | error e => rfl
  | ok F =>
    dsimp only
    rw [(C02_rank_independent (C := Unit) ranks 1 hr one_pos lat hc.1 _ fun _ _ => (0 : ℤ → o → o → ℂ)).1]

theorem eliashbergProductFFT_ranks {ranks : ℕ} (hr : 0 < ranks) (N Ng L LG : ℕ) (T : Transforms)
    {lat : List (Lat n)} (hc : Complete lat) (gammaDyn : ℕ → Lat n → T4 o) (gammaConst : Lat n → T4 o)
    (g delta : ℤ → Lat n → o → o → ℂ) :
    eliashbergProductFFT ranks N Ng L LG T lat gammaDyn gammaConst g delta
      = eliashbergProductFFT 1 N Ng L LG T lat gammaDyn gammaConst g delta := by
  unfold eliashbergProductFFT
  rw [gDeltaG_ranks hr N Ng hc]
  cases gDeltaG 1 N Ng lat g delta with
  | error e => rfl
  | ok F =>
    dsimp only
    unfold dynamicGammaF
    rw [(C02_rank_independent (C := Unit) ranks 1 hr one_pos ((List.range (L + 1)).product lat)
      (List.nodup_range.product hc.1) _ fun _ _ => (0 : o → o → ℂ)).1]

/-! ## Running the solver -/

variable {V R E : Type*} [Zero V]

theorem spmdRun_ok (ranks : ℕ) (matvec : (ℕ → V) → Except E V) (prog : ℕ → Prog V R) (fuel : ℕ) (h : List V)
    (v : ℕ → V) (hv : ∀ r, prog r h = .inl (v r)) (y : V) (hy : matvec v = .ok y) :
    spmdRun ranks matvec prog (fuel + 1) h = spmdRun ranks matvec prog fuel (h ++ [y]) := by
  have hq : (fun r => (prog r).query h) = v := by
    funext r
    simp [Prog.query, hv]
  rw [spmdRun, if_pos (by intro r _; simp [hv]), hq, hy]

theorem spmdRun_error (ranks : ℕ) (matvec : (ℕ → V) → Except E V) (prog : ℕ → Prog V R) (fuel : ℕ) (h : List V)
    (v : ℕ → V) (hv : ∀ r, prog r h = .inl (v r)) (e : E) (he : matvec v = .error e) :
    spmdRun ranks matvec prog (fuel + 1) h = .raised e := by
  have hq : (fun r => (prog r).query h) = v := by
    funext r
    simp [Prog.query, hv]
  rw [spmdRun, if_pos (by intro r _; simp [hv]), hq, he]

theorem spmdRun_done {ranks : ℕ} (hr : 0 < ranks) (matvec : (ℕ → V) → Except E V) (prog : ℕ → Prog V R) (fuel : ℕ)
    (h : List V) (res : ℕ → R) (hv : ∀ r, prog r h = .inr (res r)) :
    spmdRun ranks matvec prog (fuel + 1) h = .done fun r => some (res r) := by
  rw [spmdRun, if_neg (by intro hh; simpa [hv] using hh 0 hr), if_neg (by simp [hv])]
  simp [hv]

theorem serialRun_ok (A : V → Except E V) (prog : Prog V R) (fuel : ℕ) (h : List V) (v : V) (hv : prog h = .inl v)
    (y : V) (hy : A v = .ok y) : serialRun A prog (fuel + 1) h = serialRun A prog fuel (h ++ [y]) := by
  rw [serialRun, hv]
  dsimp only
  rw [hy]

theorem serialRun_error (A : V → Except E V) (prog : Prog V R) (fuel : ℕ) (h : List V) (v : V) (hv : prog h = .inl v)
    (e : E) (he : A v = .error e) : serialRun A prog (fuel + 1) h = .raised e := by
  rw [serialRun, hv]
  dsimp only
  rw [he]

theorem serialRun_done (A : V → Except E V) (prog : Prog V R) (fuel : ℕ) (h : List V) (res : R)
    (hv : prog h = .inr res) : serialRun A prog (fuel + 1) h = .done fun _ => some res := by
  rw [serialRun, hv]

theorem spmdRun_same {ranks : ℕ} (hr : 0 < ranks) (matvec : (ℕ → V) → Except E V) (prog : Prog V R) :
    ∀ (fuel : ℕ) (h : List V), spmdRun ranks matvec (fun _ => prog) fuel h
      = serialRun (fun v => matvec fun _ => v) prog fuel h
  | 0, _ => rfl
  | fuel + 1, h => by
    cases hp : prog h with
    | inl v =>
      cases hm : matvec fun _ => v with
      | error e =>
        rw [spmdRun_error ranks matvec _ fuel h (fun _ => v) (fun _ => hp) e hm, serialRun_error _ _ _ _ v hp e hm]
      | ok y =>
        rw [spmdRun_ok ranks matvec _ fuel h (fun _ => v) (fun _ => hp) y hm, serialRun_ok _ _ _ _ v hp y hm,
          spmdRun_same hr matvec prog fuel]
    | inr res =>
      rw [spmdRun_done hr matvec _ fuel h (fun _ => res) fun _ => hp, serialRun_done _ _ _ _ res hp]

/-- C107: when all ranks start from the same vector, every solver (any deterministic function of the start vector and of
the answers of `matvec`) runs in lock step: it never deadlocks, and every rank obtains what the serial run obtains, for
the explicit sum as well as for the product by Fourier transforms, and for any symmetrisation of the result. -/
theorem C107_same {R : Type*} {ranks : ℕ} (hr : 0 < ranks) (N Ng NG L LG : ℕ) (beta : ℝ) (T : Transforms)
    {lat : List (Lat n)} (hc : Complete lat)
    (gamma : ℤ → Lat n → T4 o) (gammaDyn : ℕ → Lat n → T4 o) (gammaConst : Lat n → T4 o)
    (g : ℤ → Lat n → o → o → ℂ) (sym : (ℤ → Lat n → o → o → ℂ) → ℤ → Lat n → o → o → ℂ)
    (prog : Prog (ℤ → Lat n → o → o → ℂ) R) (fuel : ℕ) :
    spmdRun ranks (fun v => (eliashbergProductSpmd ranks N Ng NG beta lat gamma g v).map sym) (fun _ => prog) fuel []
        = serialRun (fun v => (eliashbergProduct 1 N Ng NG beta lat gamma g v).map sym) prog fuel [] ∧
      spmdRun ranks (fun v => (eliashbergProductFFTSpmd ranks N Ng L LG T lat gammaDyn gammaConst g v).map sym)
          (fun _ => prog) fuel []
        = serialRun (fun v => (eliashbergProductFFT 1 N Ng L LG T lat gammaDyn gammaConst g v).map sym)
          prog fuel [] := by
  constructor
  · rw [spmdRun_same hr]
    congr 1
    funext v
    rw [(C107_mixed ranks N Ng NG L LG beta T hc gamma gammaDyn gammaConst g fun _ => v).1,
      eliashbergProduct_ranks hr N Ng NG beta hc gamma g]
    rfl
  · rw [spmdRun_same hr]
    congr 1
    funext v
    rw [(C107_mixed ranks N Ng NG L LG beta T hc gamma gammaDyn gammaConst g fun _ => v).2,
      eliashbergProductFFT_ranks hr N Ng L LG T hc gammaDyn gammaConst g]
    rfl

/-! ## Different start vectors -/

/-- a solver that passes its start vector to `matvec` once and never uses it again -/
def startOnly {V R : Type*} (rest : V → Prog V R) (v : V) : Prog V R
  | [] => .inl v
  | y :: ys => rest y ys

theorem spmdRun_startOnly {ranks : ℕ} (hr : 0 < ranks) (matvec : (ℕ → V) → Except E V) (A : V → Except E V)
    (mix : (ℕ → V) → V) (hmix : ∀ v, matvec v = A (mix v)) (hsame : ∀ v, mix (fun _ => v) = v)
    (rest : V → Prog V R) (v : ℕ → V) (fuel : ℕ) :
    spmdRun ranks matvec (fun r => startOnly rest (v r)) fuel []
      = serialRun A (startOnly rest (mix v)) fuel [] := by
  have key : ∀ (fuel : ℕ) (y : V) (ys : List V),
      spmdRun ranks matvec (fun r => startOnly rest (v r)) fuel (y :: ys)
        = serialRun A (startOnly rest (mix v)) fuel (y :: ys) := by
    intro fuel
    induction fuel with
    | zero => intros; rfl
    | succ fuel ih =>
      intro y ys
      cases hp : rest y ys with
      | inl q =>
        cases hA : A q with
        | error e =>
          rw [spmdRun_error ranks matvec (fun r => startOnly rest (v r)) fuel (y :: ys) (fun _ => q) (fun _ => hp) e (by rw [hmix, hsame, hA]),
            serialRun_error A (startOnly rest (mix v)) fuel (y :: ys) q hp e hA]
        | ok z =>
          rw [spmdRun_ok ranks matvec (fun r => startOnly rest (v r)) fuel (y :: ys) (fun _ => q) (fun _ => hp) z (by rw [hmix, hsame, hA]),
            serialRun_ok A (startOnly rest (mix v)) fuel (y :: ys) q hp z hA]
          exact ih y (ys ++ [z])
      | inr res =>
        rw [spmdRun_done hr matvec (fun r => startOnly rest (v r)) fuel (y :: ys) (fun _ => res) fun _ => hp,
          serialRun_done A (startOnly rest (mix v)) fuel (y :: ys) res hp]
  cases fuel with
  | zero => rfl
  | succ fuel =>
    cases hA : A (mix v) with
    | error e =>
      rw [spmdRun_error ranks matvec (fun r => startOnly rest (v r)) fuel [] v (fun _ => rfl) e (by rw [hmix, hA]),
        serialRun_error A (startOnly rest (mix v)) fuel [] (mix v) rfl e hA]
    | ok z =>
      rw [spmdRun_ok ranks matvec (fun r => startOnly rest (v r)) fuel [] v (fun _ => rfl) z (by rw [hmix, hA]),
        serialRun_ok A (startOnly rest (mix v)) fuel [] (mix v) rfl z hA]
      exact key fuel z []

/-- C107: a solver that uses its start vector only in the first product (the power method without shift) still agrees on
all ranks when their start vectors differ: it returns the serial result for the start vector assembled from the pieces
the ranks own. -/
theorem C107_power {R : Type*} {ranks : ℕ} (hr : 0 < ranks) (N Ng NG : ℕ) (beta : ℝ)
    {lat : List (Lat n)} (hc : Complete lat) (gamma : ℤ → Lat n → T4 o)
    (g : ℤ → Lat n → o → o → ℂ) (sym : (ℤ → Lat n → o → o → ℂ) → ℤ → Lat n → o → o → ℂ)
    (rest : (ℤ → Lat n → o → o → ℂ) → Prog (ℤ → Lat n → o → o → ℂ) R) (v : ℕ → ℤ → Lat n → o → o → ℂ) (fuel : ℕ) :
    spmdRun ranks (fun v => (eliashbergProductSpmd ranks N Ng NG beta lat gamma g v).map sym)
        (fun r => startOnly rest (v r)) fuel []
      = serialRun (fun v => (eliashbergProduct 1 N Ng NG beta lat gamma g v).map sym)
        (startOnly rest (mixed ranks N lat v)) fuel [] := by
  refine spmdRun_startOnly hr _ _ (mixed ranks N lat) (fun v => ?_) (fun _ => rfl) rest v fuel
  rw [(C107_mixed ranks N Ng NG 0 0 beta ⟨fun _ _ => 0, fun _ _ => 0⟩ hc gamma (fun _ _ _ _ _ _ => 0)
    (fun _ _ _ _ _ => 0) g v).1, eliashbergProduct_ranks hr N Ng NG beta hc gamma g]

/-- the unshifted power iteration forgets the vector it was called with: given the answer of `matvec`, the normalised
vector and the norm do not depend on it -/
theorem C107_power_iteration {ι : Type*} [Fintype ι] (y v v' : ι → ℂ) :
    iteration (fun _ => y) 0 v = iteration (fun _ => y) 0 v' := by
  simp [iteration]

/-! ## A Krylov solver on two ranks -/

/-- a Krylov solver for operators on two frequencies, one momentum and one orbital: it forms `x`, `A x`, `A (A x)` and
returns the coefficients `(p, q)` with `A (A x) = p A x + q x`, that is the characteristic polynomial
`λ² - p λ - q` of the compression of `A` to the Krylov space (the spectrum Arnoldi's method returns after two steps) -/
def krylov2 (x : ℤ → L1 → Fin 1 → Fin 1 → ℂ) : Prog (ℤ → L1 → Fin 1 → Fin 1 → ℂ) (ℂ × ℂ)
  | [] => .inl x
  | [y] => .inl y
  | y :: z :: _ =>
    let D := x (-1) 0 0 0 * y 0 0 0 0 - x 0 0 0 0 * y (-1) 0 0 0
    .inr ((x (-1) 0 0 0 * z 0 0 0 0 - x 0 0 0 0 * z (-1) 0 0 0) / D,
      (z (-1) 0 0 0 * y 0 0 0 0 - z 0 0 0 0 * y (-1) 0 0 0) / D)

/-- `krylov2` is a correct eigenvalue solver: for every operator, when the Krylov space is two-dimensional, every root
of the polynomial it returns is an eigenvalue, with an eigenvector that does not vanish. -/
theorem krylov2_correct (A : (ℤ → L1 → Fin 1 → Fin 1 → ℂ) →ₗ[ℂ] ℤ → L1 → Fin 1 → Fin 1 → ℂ)
    (x : ℤ → L1 → Fin 1 → Fin 1 → ℂ)
    (hx : x (-1) 0 0 0 * A x 0 0 0 0 - x 0 0 0 0 * A x (-1) 0 0 0 ≠ 0) :
    ∃ p q, serialRun (E := EliErr) (fun v => .ok (A v)) (krylov2 x) 3 [] = .done (fun _ => some (p, q)) ∧
      ∀ lam : ℂ, lam ^ 2 = p * lam + q → ∃ v, (v (-1) 0 0 0 ≠ 0 ∨ v 0 0 0 0 ≠ 0) ∧
        ∀ w : ℤ, w = -1 ∨ w = 0 → A v w 0 0 0 = lam * v w 0 0 0 := by
  refine ⟨_, _, rfl, fun lam hlam => ?_⟩
  set y := A x with hy
  set z := A y with hz
  set D := x (-1) 0 0 0 * y 0 0 0 0 - x 0 0 0 0 * y (-1) 0 0 0 with hD
  set p := (x (-1) 0 0 0 * z 0 0 0 0 - x 0 0 0 0 * z (-1) 0 0 0) / D with hp
  set q := (z (-1) 0 0 0 * y 0 0 0 0 - z 0 0 0 0 * y (-1) 0 0 0) / D with hq
  have hlam' : lam ^ 2 = p * lam + q := hlam
  have hz1 : z (-1) 0 0 0 = p * y (-1) 0 0 0 + q * x (-1) 0 0 0 := by
    rw [hp, hq]
    field_simp
    rw [hD]
    ring
  have hz0 : z 0 0 0 0 = p * y 0 0 0 0 + q * x 0 0 0 0 := by
    rw [hp, hq]
    field_simp
    rw [hD]
    ring
  refine ⟨y + (lam - p) • x, ?_, ?_⟩
  · by_contra hcon
    push Not at hcon
    obtain ⟨h1, h0⟩ := hcon
    simp only [Pi.add_apply, Pi.smul_apply, smul_eq_mul] at h1 h0
    apply hx
    linear_combination x (-1) 0 0 0 * h0 - x 0 0 0 0 * h1
  · intro w hw
    rw [map_add, map_smul, ← hy, ← hz]
    simp only [Pi.add_apply, Pi.smul_apply, smul_eq_mul]
    rcases hw with rfl | rfl
    · rw [hz1]
      linear_combination (-x (-1) 0 0 0) * hlam'
    · rw [hz0]
      linear_combination (-x 0 0 0 0) * hlam'

/-- a generator that replays a stream of numbers -/
def replay : Rng where
  S := ℕ → ℝ
  seeded _ := fun _ => 1 / 2
  value s := s 0
  next s := fun j => s (j + 1)

theorem replay_after (j : ℕ) (s : ℕ → ℝ) : (replay.next^[j] s : ℕ → ℝ) = fun i => s (i + j) := by
  induction j generalizing s with
  | zero => rfl
  | succ j ih =>
    refine (ih fun i => s (i + 1)).trans ?_
    funext i
    exact congrArg s (by omega)

theorem replay_draw (s : ℕ → ℝ) (j : ℕ) : replay.draw s j = s j := by
  unfold Rng.draw
  rw [replay_after]
  exact congrArg s (by omega)

/-- the numbers the two ranks draw -/
def twoRanks : ℕ → ℕ → ℝ
  | 0 => fun j => if j = 0 then 1 / 2 else if j = 1 then 1 / 2 else 0
  | _ => fun j => if j = 0 then 1 / 2 else if j = 1 then 1 / 4 else if j = 2 then 3 / 4 else 0

/-- a pairing vertex that couples the two frequencies -/
def swapVertex : ℤ → L1 → T4 (Fin 1) := fun m _ _ _ _ _ => if m = 0 then 0 else -2

/-- an operator has the eigenvalue `lam` on the frequencies of the gap -/
def IsEigenvalue (A : (ℤ → L1 → Fin 1 → Fin 1 → ℂ) → Except EliErr (ℤ → L1 → Fin 1 → Fin 1 → ℂ)) (lam : ℂ) : Prop :=
  ∃ u out, A u = .ok out ∧ (u (-1) 0 0 0 ≠ 0 ∨ u 0 0 0 0 ≠ 0) ∧
    out (-1) 0 0 0 = lam * u (-1) 0 0 0 ∧ out 0 0 0 0 = lam * u 0 0 0 0

theorem complete_one : Complete ([0] : List L1) := ⟨by simp, fun k => by simp [Subsingleton.elim k 0]⟩

theorem swap_product (ranks : ℕ) (hr : 0 < ranks) (delta : ℤ → L1 → Fin 1 → Fin 1 → ℂ) :
    ∃ out, eliashbergProduct ranks 1 1 3 1 [0] swapVertex (fun _ _ _ _ => 1) delta = .ok out ∧
      out (-1) 0 0 0 = delta 0 0 0 0 ∧ out 0 0 0 0 = delta (-1) 0 0 0 := by
  refine ⟨_, eliashbergProduct_ok hr (by omega) (by omega) 1 complete_one _ _ _, ?_, ?_⟩
  all_goals
    have hw : window 1 = {-1, 0} := by decide
    simp [sumValue, hw, gammaF, pairF, gdgPoint, swapVertex, Subsingleton.elim (default : L1) 0]

theorem owner_first : owner 2 (gapMesh 1 ([0] : List L1)) (-1, 0) = 0 :=
  owner_eq (gapMesh_nodup 1 complete_one) (by omega) (by decide)

theorem owner_second : owner 2 (gapMesh 1 ([0] : List L1)) (0, 0) = 1 :=
  owner_eq (gapMesh_nodup 1 complete_one) (by omega) (by decide)

theorem start_two (current : ℕ → ℕ → ℝ) (r : ℕ) : ∃ v, startVector replay (fun r => (current r : ℕ → ℝ))
      (fun r => (twoRanks r : ℕ → ℝ)) 1 (fun _ : L1 × Fin 1 × Fin 1 => 0) none (fun _ _ _ _ => 1) r = .ok v ∧
    v (-1) 0 0 0 = ((twoRanks r 1 * twoRanks r 0 : ℝ) : ℂ) ∧ v 0 0 0 0 = ((twoRanks r 2 * twoRanks r 0 : ℝ) : ℂ) := by
  have hM : notRandomized 1 (1 / 2) = 0 := by
    unfold notRandomized
    norm_num
  refine ⟨_, by
    unfold startVector semiRandomInitialDelta
    dsimp only
    rw [hM, if_neg (by norm_num)], ?_, ?_⟩
  · simp [freqData, Rng.reseed, replay_draw]
    exact Or.inl rfl
  · simp [freqData, Rng.reseed, replay_draw]
    exact Or.inl rfl

/-- C107: with the default start vector the ranks disagree.  There are numbers the ranks may draw such that on two ranks
a Krylov solver that is correct for every operator (`krylov2_correct`) returns, on rank 0, a characteristic polynomial
none of whose roots is an eigenvalue of the Eliashberg product, although `1` is one. -/
theorem C107_start_violated : (∀ r j, 0 ≤ twoRanks r j ∧ twoRanks r j < 1) ∧
    HermitianG (fun (_ : ℤ) (_ : L1) (_ _ : Fin 1) => (1 : ℂ)) ∧ ∀ current : ℕ → ℕ → ℝ,
      ∃ v : ℕ → ℤ → L1 → Fin 1 → Fin 1 → ℂ,
        (∀ r, startVector replay (fun r => (current r : ℕ → ℝ)) (fun r => (twoRanks r : ℕ → ℝ)) 1
          (fun _ : L1 × Fin 1 × Fin 1 => 0) none (fun _ _ _ _ => 1) r = .ok (v r)) ∧
        ∃ res : ℕ → ℂ × ℂ, spmdRun 2 (eliashbergProductSpmd 2 1 1 3 1 [0] swapVertex (fun _ _ _ _ => 1))
            (fun r => krylov2 (v r)) 3 [] = .done (fun r => some (res r)) ∧
          IsEigenvalue (eliashbergProduct 1 1 1 3 1 [0] swapVertex (fun _ _ _ _ => 1)) 1 ∧
          ∀ lam, IsEigenvalue (eliashbergProduct 1 1 1 3 1 [0] swapVertex (fun _ _ _ _ => 1)) lam →
            lam ^ 2 ≠ (res 0).1 * lam + (res 0).2 := by
  refine ⟨fun r j => ?_, fun m k a b => by simp, fun current => ?_⟩
  · rcases r with _ | r
    · simp only [twoRanks]
      split_ifs <;> norm_num
    · simp only [twoRanks]
      split_ifs <;> norm_num
  choose v hv hv1 hv0 using start_two current
  refine ⟨v, hv, ?_⟩
  have hmv : ∀ u : ℕ → ℤ → L1 → Fin 1 → Fin 1 → ℂ, ∃ out,
      eliashbergProductSpmd 2 1 1 3 1 [0] swapVertex (fun _ _ _ _ => 1) u = .ok out ∧
        out (-1) 0 0 0 = u 1 0 0 0 0 ∧ out 0 0 0 0 = u 0 (-1) 0 0 0 := by
    intro u
    obtain ⟨out, h1, h2, h3⟩ := swap_product 2 (by omega) (mixed 2 1 [0] u)
    refine ⟨out, ?_, ?_, ?_⟩
    · rw [(C107_mixed 2 1 1 3 0 0 1 ⟨fun _ _ => 0, fun _ _ => 0⟩ complete_one swapVertex (fun _ _ _ _ _ _ => 0)
        (fun _ _ _ _ _ => 0) (fun _ _ _ _ => 1) u).1, h1]
    · rw [h2, mixed, owner_second]
    · rw [h3, mixed, owner_first]
  obtain ⟨y, hy, hy1, hy0⟩ := hmv v
  obtain ⟨z, hz, hz1, hz0⟩ := hmv fun _ => y
  refine ⟨fun r => ((v r (-1) 0 0 0 * z 0 0 0 0 - v r 0 0 0 0 * z (-1) 0 0 0)
        / (v r (-1) 0 0 0 * y 0 0 0 0 - v r 0 0 0 0 * y (-1) 0 0 0),
      (z (-1) 0 0 0 * y 0 0 0 0 - z 0 0 0 0 * y (-1) 0 0 0)
        / (v r (-1) 0 0 0 * y 0 0 0 0 - v r 0 0 0 0 * y (-1) 0 0 0)), ?_, ?_, ?_⟩
  · refine (spmdRun_ok 2 _ _ 2 [] v (fun _ => rfl) y hy).trans ?_
    refine (spmdRun_ok 2 _ _ 1 [y] (fun _ => y) (fun _ => rfl) z hz).trans ?_
    exact spmdRun_done (by omega) _ _ 0 [y, z] _ fun _ => rfl
  · obtain ⟨out, h1, h2, h3⟩ := swap_product 1 (by omega) fun _ _ _ _ => 1
    exact ⟨_, out, h1, Or.inl one_ne_zero, by rw [h2]; ring, by rw [h3]; ring⟩
  · rintro lam ⟨u, out, hu, hne, e1, e0⟩ hroot
    obtain ⟨out', h1, h2, h3⟩ := swap_product 1 (by omega) u
    have hout : out = out' := by
      rw [h1] at hu
      exact (Except.ok.inj hu).symm
    subst hout
    rw [h2] at e1
    rw [h3] at e0
    have hsq : lam ^ 2 = 1 := by
      rcases hne with h | h
      · apply mul_right_cancel₀ h
        linear_combination (-lam) * e1 - e0
      · apply mul_right_cancel₀ h
        linear_combination (-lam) * e0 - e1
    simp only [hz1, hz0, hy1, hy0, hv1, hv0, twoRanks] at hroot
    norm_num at hroot
    have hl : lam = 3 / 2 := by linear_combination (2 / 3) * hsq - (2 / 3) * hroot
    rw [hl] at hsq
    norm_num at hsq

/-! ## The start vector -/

variable {X : Type*} [Fintype X]

/-- C107: the routine accepts exactly when the two protected ends of the frequency axis fit into it; every
`nr_factor` between 0 and 1 is accepted. -/
theorem C107_accepts (Rg : Rng) (current entropy : Rg.S) (N : ℕ) (pos : X → ℕ) (nr : ℝ) (seed : Option ℕ)
    (g : ℤ → X → ℂ) :
    (semiRandomInitialDelta Rg current entropy N pos nr seed g = .error .negativeDimension ↔ (N : ℤ) < ⌊nr * N⌋) ∧
      (nr ≤ 1 → ∃ out, semiRandomInitialDelta Rg current entropy N pos nr seed g = .ok out) := by
  have hM : notRandomized N nr = ⌊nr * N⌋ := by
    unfold notRandomized
    congr 1
    push_cast
    ring
  have hle : nr ≤ 1 → ⌊nr * N⌋ ≤ (N : ℤ) := by
    intro h
    have h1 : nr * N ≤ (N : ℝ) := by nlinarith [Nat.cast_nonneg (α := ℝ) N]
    calc ⌊nr * N⌋ ≤ ⌊(N : ℝ)⌋ := Int.floor_mono h1
      _ = N := Int.floor_natCast N
  unfold semiRandomInitialDelta
  simp only [hM]
  constructor
  · split_ifs with h
    · refine ⟨fun _ => ?_, fun _ => rfl⟩
      push_cast at h
      omega
    · refine ⟨fun hh => by simp at hh, fun hh => absurd ?_ h⟩
      push_cast
      omega
  · intro h1
    have := hle h1
    rw [if_neg (by push_cast; omega)]
    exact ⟨_, rfl⟩

/-- C107: what the start vector is.  It is real, it is a product of a function of the frequency and of random numbers in
`[0, 1)` for momenta and orbitals; the frequency function is the mean of `|Re G|` on the first and the last
`⌊nr_factor N⌋` of the `2 N` frequencies (the tails used by the Fourier transforms), and lies between zero and that mean
in between. -/
theorem C107_values (Rg : Rng) (hR : ∀ s, 0 ≤ Rg.value s ∧ Rg.value s < 1) (current entropy : Rg.S) (N : ℕ)
    (pos : X → ℕ) (nr : ℝ) (seed : Option ℕ) (g : ℤ → X → ℂ) (v : ℤ → X → ℂ) (s' : Rg.S)
    (h : semiRandomInitialDelta Rg current entropy N pos nr seed g = .ok (v, s')) :
    ∃ (f : ℤ → ℝ) (u : X → ℝ), (∀ w x, v w x = ((f w * u x : ℝ) : ℂ)) ∧ (∀ x, 0 ≤ u x ∧ u x < 1) ∧
      (∀ w : ℤ, (w < -N + ⌊nr * N⌋ ∨ N - ⌊nr * N⌋ ≤ w) → f w = (∑ x, |(g w x).re|) / Fintype.card X) ∧
      ∀ w, 0 ≤ f w ∧ f w ≤ (∑ x, |(g w x).re|) / Fintype.card X := by
  have hM : notRandomized N nr = ⌊nr * N⌋ := by
    unfold notRandomized
    congr 1
    push_cast
    ring
  unfold semiRandomInitialDelta at h
  simp only [hM] at h
  split_ifs at h with hneg
  have hv := (Prod.mk.inj (Except.ok.inj h)).1
  have hmean : ∀ w, 0 ≤ (∑ x, |(g w x).re|) / Fintype.card X := fun w =>
    div_nonneg (Finset.sum_nonneg fun _ _ => abs_nonneg _) (Nat.cast_nonneg _)
  refine ⟨fun w => if ⌊nr * N⌋ ≤ w + N ∧ w + N < ((2 * N : ℕ) : ℤ) - ⌊nr * N⌋ then freqData g w *
      Rg.draw (Rg.next^[Fintype.card X] (Rg.reseed current entropy seed)) (w + N - ⌊nr * N⌋).toNat else freqData g w,
    fun x => Rg.draw (Rg.reseed current entropy seed) (pos x),
    fun w x => (congrFun (congrFun hv.symm w) x).trans rfl, fun x => hR _, fun w hw => ?_, fun w => ?_⟩
  · dsimp only
    rw [if_neg]
    · rfl
    · push_cast
      omega
  · dsimp only
    split_ifs
    · refine ⟨mul_nonneg (hmean w) (hR _).1, ?_⟩
      exact mul_le_of_le_one_right (hmean w) (hR _).2.le
    · exact ⟨hmean w, le_rfl⟩

/-- C107: the start vector of a solver run: the given one, or with the values of `C107_values` from the Green's function, a quarter
of the frequencies on each side not randomised. -/
theorem C107_solver_start {d : ℕ} {n : Fin d → ℕ} [∀ i, NeZero (n i)] {o : Type*} [Fintype o] [DecidableEq o] (Rg : Rng)
    (hR : ∀ s, 0 ≤ Rg.value s ∧ Rg.value s < 1) (current entropy : ℕ → Rg.S) (N : ℕ) (pos : Lat n × o × o → ℕ)
    (g : ℤ → Lat n → o → o → ℂ) (r : ℕ) :
    (∀ v, startVector Rg current entropy N pos (some v) g r = .ok v) ∧
      ∃ (v : ℤ → Lat n → o → o → ℂ) (f : ℤ → ℝ) (u : Lat n → o → o → ℝ), startVector Rg current entropy N pos none g r = .ok v ∧
        (∀ w k a b, v w k a b = ((f w * u k a b : ℝ) : ℂ)) ∧ (∀ k a b, 0 ≤ u k a b ∧ u k a b < 1) ∧
        (∀ w : ℤ, (w < -N + ⌊(N : ℝ) / 2⌋ ∨ N - ⌊(N : ℝ) / 2⌋ ≤ w) →
          f w = (∑ k, ∑ a, ∑ b, |(g w k a b).re|) / Fintype.card (Lat n × o × o)) ∧
        ∀ w, 0 ≤ f w ∧ f w ≤ (∑ k, ∑ a, ∑ b, |(g w k a b).re|) / Fintype.card (Lat n × o × o) := by
  refine ⟨fun _ => rfl, ?_⟩
  obtain ⟨⟨v, s'⟩, hv⟩ := (C107_accepts Rg (current r) (entropy r) N pos (1 / 2) none
    fun w (x : Lat n × o × o) => g w x.1 x.2.1 x.2.2).2 (by norm_num)
  obtain ⟨f, u, h1, h2, h3, h4⟩ := C107_values Rg hR (current r) (entropy r) N pos (1 / 2) none _ v s' hv
  have hs : ∀ w, (∑ x : Lat n × o × o, |(g w x.1 x.2.1 x.2.2).re|) = ∑ k, ∑ a, ∑ b, |(g w k a b).re| := by
    intro w
    rw [Fintype.sum_prod_type]
    exact Finset.sum_congr rfl fun k _ => Fintype.sum_prod_type _
  simp only [hs, show (1 / 2 : ℝ) * N = N / 2 by ring] at h3 h4
  refine ⟨fun w k a b => v w (k, a, b), f, fun k a b => u (k, a, b), ?_, fun w k a b => h1 w _, fun k a b => h2 _, h3, h4⟩
  unfold startVector
  dsimp only
  rw [hv]

/-- C107: with a seed the start vector is reproducible: it does not depend on what was drawn before nor on the entropy of
the operating system, hence is the same on all ranks. -/
theorem C107_seeded (Rg : Rng) (current current' entropy entropy' : Rg.S) (N : ℕ) (pos : X → ℕ) (nr : ℝ) (s : ℕ)
    (g : ℤ → X → ℂ) : semiRandomInitialDelta Rg current entropy N pos nr (some s) g
      = semiRandomInitialDelta Rg current' entropy' N pos nr (some s) g := rfl

/-- C107: seeding `numpy.random` before calling the solver has no effect: the start vector the solver draws does not
depend on the state of the generator, and two runs with the same state differ. -/
theorem C107_reproducible_violated : (∀ (Rg : Rng) (current current' entropy : ℕ → Rg.S) (N : ℕ)
      (pos : L1 × Fin 1 × Fin 1 → ℕ) (g : ℤ → L1 → Fin 1 → Fin 1 → ℂ) (r : ℕ),
      startVector Rg current entropy N pos none g r = startVector Rg current' entropy N pos none g r) ∧
    ∃ (Rg : Rng) (entropy entropy' : ℕ → Rg.S), (∀ current : ℕ → Rg.S,
      startVector Rg current entropy 1 (fun _ : L1 × Fin 1 × Fin 1 => 0) none (fun _ _ _ _ => 1) 0
        ≠ startVector Rg current entropy' 1 (fun _ : L1 × Fin 1 × Fin 1 => 0) none (fun _ _ _ _ => 1) 0) := by
  refine ⟨fun _ _ _ _ _ _ _ _ => rfl, replay, fun r => (twoRanks r : ℕ → ℝ), fun _ => (twoRanks 1 : ℕ → ℝ),
    fun current h => ?_⟩
  obtain ⟨v, h1, h2, _⟩ := start_two current 0
  obtain ⟨v', h1', h2', _⟩ := start_two current 1
  have hvv : v = v' := by
    refine Except.ok.inj (h1.symm.trans (h.trans ?_))
    exact h1'
  rw [← hvv, h2] at h2'
  simp only [twoRanks] at h2'
  norm_num at h2'

/-- C107: a Green's function without real part (an atom, or any particle-hole symmetric local function) leads to the
zero vector, from which the power method cannot start whatever numbers are drawn. -/
theorem C107_zero_violated (Rg : Rng) (current entropy : Rg.S) (N : ℕ) (pos : X → ℕ) (nr : ℝ) (hnr : nr ≤ 1)
    (seed : Option ℕ) (g : ℤ → X → ℂ) (hg : ∀ w x, (g w x).re = 0) :
    ∃ s', semiRandomInitialDelta Rg current entropy N pos nr seed g = .ok (fun _ _ => 0, s') ∧
      ∀ {ι : Type} [Fintype ι] (A : (ι → ℂ) → ι → ℂ), A (fun _ => 0) = (fun _ => 0) → ∀ tol maxIt,
        powerMethodLR A tol maxIt (fun _ => 0) = none := by
  obtain ⟨⟨v, s'⟩, hv⟩ := (C107_accepts Rg current entropy N pos nr seed g).2 hnr
  refine ⟨s', ?_, ?_⟩
  · rw [hv]
    congr 2
    unfold semiRandomInitialDelta at hv
    dsimp only at hv
    split_ifs at hv with hneg
    rw [← (Prod.mk.inj (Except.ok.inj hv)).1]
    funext w x
    have : freqData g w = 0 := by simp [freqData, hg]
    simp [this]
  · intro ι _ A hA tol maxIt
    have h0 : iteration A 0 (fun _ => 0) = none := by
      simp [iteration, hA, norm2]
    simp [powerMethodLR, powerMethod, h0]

example : ∀ (w : ℤ) (_ : Fin 2), ((1 : ℂ) / (((2 * w + 1 : ℤ) : ℝ) * I)).re = 0 := by
  intro w _
  rw [one_div, mul_inv, Complex.inv_I, ← Complex.ofReal_inv, mul_neg, Complex.neg_re, Complex.re_ofReal_mul,
    Complex.I_re, mul_zero, neg_zero]

end Verif.Eliashberg
