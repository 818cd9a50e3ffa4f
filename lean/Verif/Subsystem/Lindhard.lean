import Verif.Subsystem.Vertex
import Verif.Lindhard.Props
import Verif.Gw.Model

/-!
# C127: uncoupled subsystems, functions of the bands

Whatever the diagonalisation routine does with the whole matrix (also for degenerate bands of the two parts, where its
eigenvectors mix them), functions of the bands restrict.
-/

set_option linter.unusedSectionVars false

noncomputable section

namespace Verif.Subsystem

open Verif.Parallel Verif.Fourier Verif.Lindhard Matrix

variable {o : Type*} [Fintype o] [DecidableEq o] {s : Type*} [Fintype s] [DecidableEq s] {ι : s → o}

/-- functions of two matrices related by a rectangular one -/
theorem matFun_intertwine {X : Matrix o o ℂ} {Y : Matrix s s ℂ} {p : (o → ℝ) × Matrix o o ℂ} {q : (s → ℝ) × Matrix s s ℂ}
    (hp : Diag X p) (hq : Diag Y q) {B : Matrix o s ℂ} (h : X * B = B * Y) (f : ℝ → ℂ) :
    matFun p f * B = B * matFun q f := by
  obtain ⟨p1, p2, p3⟩ := hp
  obtain ⟨q1, q2, q3⟩ := hq
  have key : diagonal (fun i => (p.1 i : ℂ)) * (p.2ᴴ * B * q.2) = p.2ᴴ * B * q.2 * diagonal (fun i => (q.1 i : ℂ)) := by
    calc diagonal (fun i => (p.1 i : ℂ)) * (p.2ᴴ * B * q.2)
        = p.2ᴴ * p.2 * diagonal (fun i => (p.1 i : ℂ)) * (p.2ᴴ * B * q.2) := by rw [p1, one_mul]
      _ = p.2ᴴ * ((p.2 * diagonal (fun i => (p.1 i : ℂ)) * p.2ᴴ) * B) * q.2 := by simp only [Matrix.mul_assoc]
      _ = p.2ᴴ * (B * (q.2 * diagonal (fun i => (q.1 i : ℂ)) * q.2ᴴ)) * q.2 := by rw [← p3, h, ← q3]
      _ = p.2ᴴ * B * q.2 * diagonal (fun i => (q.1 i : ℂ)) * (q.2ᴴ * q.2) := by simp only [Matrix.mul_assoc]
      _ = _ := by rw [q1, Matrix.mul_one]
  have key2 : diagonal (fun i => f (p.1 i)) * (p.2ᴴ * B * q.2) = p.2ᴴ * B * q.2 * diagonal (fun i => f (q.1 i)) := by
    ext i j
    have h := congrFun (congrFun key i) j
    simp only [Matrix.mul_diagonal, Matrix.diagonal_mul] at h ⊢
    by_cases hw : (p.2ᴴ * B * q.2) i j = 0
    · simp [hw]
    · have : (p.1 i : ℂ) = q.1 j := by
        rw [mul_comm _ (q.1 j : ℂ)] at h
        exact mul_right_cancel₀ hw h
      have : p.1 i = q.1 j := by exact_mod_cast this
      rw [this, mul_comm]
  calc matFun p f * B = p.2 * diagonal (fun i => f (p.1 i)) * p.2ᴴ * B * (q.2 * q.2ᴴ) := by rw [q2, Matrix.mul_one]; rfl
    _ = p.2 * (diagonal (fun i => f (p.1 i)) * (p.2ᴴ * B * q.2)) * q.2ᴴ := by simp only [Matrix.mul_assoc]
    _ = p.2 * (p.2ᴴ * B * q.2 * diagonal (fun i => f (q.1 i))) * q.2ᴴ := by rw [key2]
    _ = (p.2 * p.2ᴴ) * B * (q.2 * diagonal (fun i => f (q.1 i)) * q.2ᴴ) := by simp only [Matrix.mul_assoc]
    _ = B * matFun q f := by rw [p2, Matrix.one_mul]; rfl

/-- inclusion of the subsystem as a matrix -/
def incl (ι : s → o) : Matrix o s ℂ := fun i a => if i = ι a then 1 else 0

theorem mul_incl (X : Matrix o o ℂ) (i : o) (a : s) : (X * incl ι) i a = X i (ι a) := by
  rw [Matrix.mul_apply, Finset.sum_eq_single (ι a)]
  · rw [incl, if_pos rfl, mul_one]
  · intro b _ hb
    rw [incl, if_neg hb, mul_zero]
  · exact fun h => absurd (Finset.mem_univ _) h

theorem incl_mul (hi : Function.Injective ι) (Y : Matrix s s ℂ) (a b : s) : (incl ι * Y) (ι a) b = Y a b := by
  rw [Matrix.mul_apply, Finset.sum_eq_single a]
  · rw [incl, if_pos rfl, one_mul]
  · intro c _ hc
    rw [incl, if_neg fun h => hc (hi h).symm, zero_mul]
  · exact fun h => absurd (Finset.mem_univ _) h

theorem incl_mul_out (Y : Matrix s s ℂ) {i : o} (h : i ∉ Set.range ι) (b : s) : (incl ι * Y) i b = 0 := by
  rw [Matrix.mul_apply]
  refine Finset.sum_eq_zero fun c _ => ?_
  rw [incl, if_neg fun h' => h ⟨c, h'.symm⟩, zero_mul]

/-- functions of the bands of the subsystem -/
theorem matFun_part (hi : Function.Injective ι) {X : Matrix o o ℂ} (hX : Apart (Set.range ι) X) {p : (o → ℝ) × Matrix o o ℂ}
    {q : (s → ℝ) × Matrix s s ℂ} (hp : Diag X p) (hq : Diag (part ι X) q) (f : ℝ → ℂ) :
    part ι (matFun p f) = matFun q f := by
  have h : X * incl ι = incl ι * part ι X := by
    ext i a
    rw [mul_incl]
    by_cases hr : i ∈ Set.range ι
    · obtain ⟨b, rfl⟩ := hr
      rw [incl_mul hi]
      rfl
    · rw [incl_mul_out _ hr]
      exact (hX i (ι a)).resolve_left fun h => hr (h.2 ⟨a, rfl⟩)
  ext a b
  have := congrFun (congrFun (matFun_intertwine hp hq h f) (ι a)) b
  rw [mul_incl, incl_mul hi] at this
  exact this

theorem matFun_apart {S : Set o} {X : Matrix o o ℂ} (hX : Apart S X) {p : (o → ℝ) × Matrix o o ℂ} (hp : Diag X p) (f : ℝ → ℂ) :
    Apart S (matFun p f) := by
  rw [apart_iff] at hX ⊢
  exact (matFun_intertwine hp hp hX.symm f).symm

/-- functions of pairs of bands -/
theorem dbl_part (hi : Function.Injective ι) {X Y : Matrix o o ℂ} (hX : Apart (Set.range ι) X) (hY : Apart (Set.range ι) Y)
    {p p' : (o → ℝ) × Matrix o o ℂ} {q q' : (s → ℝ) × Matrix s s ℂ} (hp : Diag X p) (hp' : Diag Y p')
    (hq : Diag (part ι X) q) (hq' : Diag (part ι Y) q') (h : ℝ → ℝ → ℂ) : cut ι (dbl p p' h) = dbl q q' h := by
  have hm : ∀ {X : Matrix o o ℂ} {p : (o → ℝ) × Matrix o o ℂ} {q : (s → ℝ) × Matrix s s ℂ}, Apart (Set.range ι) X → Diag X p →
      Diag (part ι X) q → ∀ f c b, matFun p f (ι c) (ι b) = matFun q f c b := fun h1 h2 h3 f c b =>
    congrFun (congrFun (matFun_part hi h1 h2 h3 f) c) b
  funext a b c e
  change dbl p p' h (ι a) (ι b) (ι c) (ι e) = _
  rw [dbl_eq]
  simp only [hm hY hp' hq']
  have e1 : ∑ i, p.2 (ι a) i * matFun q' (h (p.1 i)) c b * p.2ᴴ i (ι e)
      = ∑ j, q'.2 c j * matFun p (fun x => h x (q'.1 j)) (ι a) (ι e) * q'.2ᴴ j b := by
    simp only [matFun_apply, Finset.mul_sum, Finset.sum_mul]
    rw [Finset.sum_comm]
    refine Finset.sum_congr rfl fun i _ => Finset.sum_congr rfl fun j _ => ?_
    ring
  rw [e1]
  simp only [hm hX hp hq]
  rw [dbl_swap, dbl_eq]

theorem dbl_linked {S : Set o} {X Y : Matrix o o ℂ} (hX : Apart S X) (hY : Apart S Y)
    {p p' : (o → ℝ) × Matrix o o ℂ} (hp : Diag X p) (hp' : Diag Y p') (h : ℝ → ℝ → ℂ) : Linked S (dbl p p' h) := by
  intro a b c e
  by_cases h1 : Side S a e
  · by_cases h2 : Side S b c
    · exact .inl ⟨h1, h2⟩
    · refine .inr ?_
      rw [dbl_eq]
      refine Finset.sum_eq_zero fun i _ => ?_
      rw [(matFun_apart hY hp' (h (p.1 i)) c b).resolve_left fun x => h2 x.symm, mul_zero, zero_mul]
  · refine .inr ?_
    rw [dbl_swap, dbl_eq]
    refine Finset.sum_eq_zero fun i _ => ?_
    rw [(matFun_apart hX hp (fun y => h y (p'.1 i)) a e).resolve_left h1, mul_zero, zero_mul]

theorem shift_apart {S : Set o} {X : Matrix o o ℂ} (hX : Apart S X) (mu : ℂ) : Apart S (X - mu • 1) :=
  hX.sub (apart_one.smul mu)

theorem part_shift (hi : Function.Injective ι) (X : Matrix o o ℂ) (mu : ℂ) : part ι (X - mu • 1) = part ι X - mu • 1 := by
  rw [← part_injective_one (F := ℂ) hi]
  rfl

section Lattice

variable {d : ℕ} {n : Fin d → ℕ} [∀ i, NeZero (n i)]

/-- C127: the Lindhard function and the real time Green's functions of the subsystem are those calculated alone, with any
diagonalisation routines. -/
theorem C127_lindhard (hi : Function.Injective ι) (ranks : ℕ) {eig : Eig o} {eig' : Eig s} (hs : EigSpec eig) (hs' : EigSpec eig')
    (tol beta mu : ℝ) (kmesh : List (Lat n)) (e : Lat n → Matrix o o ℂ) (he : ∀ k, (e k).IsHermitian)
    (ha : ∀ k, Apart (Set.range ι) (e k)) (z : ℂ) :
    (∀ q, lindhard ranks eig' tol beta mu kmesh (fun k => part ι (e k)) z q = cut ι (lindhard ranks eig tol beta mu kmesh e z q)) ∧
      (∀ q, Linked (Set.range ι) (lindhard ranks eig tol beta mu kmesh e z q)) ∧
      (∀ k T, g0TkLes ranks eig' beta kmesh (fun k => part ι (e k)) k T = part2 ι (g0TkLes ranks eig beta kmesh e k T)) ∧
      ∀ k T, g0TkGtr ranks eig' beta kmesh (fun k => part ι (e k)) k T = part2 ι (g0TkGtr ranks eig beta kmesh e k T) := by
  have he' : ∀ k, (part ι (e k)).IsHermitian := fun k => (he k).submatrix ι
  have hd' : ∀ k, Diag (part ι (e k - (mu : ℂ) • 1)) (sys eig' mu (fun k => part ι (e k)) k) := fun k => by
    rw [part_shift hi]
    exact sys_diag hs' mu he' k
  have hg : ∀ (w : ℝ → ℂ) k T, g0T eig' beta w (part ι (e k)) T = part2 ι (g0T eig beta w (e k) T) := by
    intro w k T
    funext a b
    rw [g0T_eq, ← matFun_part hi (ha k) (hs _ (he k)) (hs' _ (he' k))]
    change _ = g0T eig beta w (e k) T (ι a) (ι b)
    rw [g0T_eq]
    rfl
  refine ⟨fun q => ?_, fun q => ?_, fun k T => ?_, fun k T => ?_⟩
  · unfold lindhard
    rw [distributedAccumulate_map (cutHom ℂ ι) ranks kmesh (fun k q => lindhardTerm eig tol beta mu e z q k) _ fun k _ q => ?_]
    · rfl
    · exact (dbl_part hi (shift_apart (ha k) _) (shift_apart (ha (k + q)) _) (sys_diag hs mu he k) (sys_diag hs mu he (k + q))
        (hd' k) (hd' (k + q)) (totalFactor tol beta z)).symm
  · refine Linked.smul _ (distributedAccumulate_ind _ linked_zero (fun _ _ => Linked.add) _ _ _ (fun k _ q => ?_) q)
    exact dbl_linked (shift_apart (ha k) _) (shift_apart (ha (k + q)) _) (sys_diag hs mu he k) (sys_diag hs mu he (k + q)) _
  · exact congrFun (congrFun (distributedAssign_map (M := ℝ → o → o → ℂ) (M' := ℝ → s → s → ℂ)
      { toFun := fun x T => part2 ι (x T), map_zero' := rfl, map_add' := fun _ _ => rfl } ranks kmesh _ _
      fun k _ => funext fun T => hg _ k T) k) T
  · exact congrFun (congrFun (distributedAssign_map (M := ℝ → o → o → ℂ) (M' := ℝ → s → s → ℂ)
      { toFun := fun x T => part2 ι (x T), map_zero' := rfl, map_add' := fun _ _ => rfl } ranks kmesh _ _
      fun k _ => funext fun T => hg _ k T) k) T

open Verif.Gw

theorem g0wStatic_apply (eig : Eig o) {K : Type*} [AddCommGroup K] (mu beta : ℝ) (ek : K → Matrix o o ℂ) (pt : Lat n → K)
    (kmesh : List (Lat n)) (v : Lat n → Bubble.T4 o) (kp : K) (a b : o) :
    g0wStatic eig mu beta ek pt kmesh v kp a b = (kmesh.map fun q =>
      matFun (eig (ek (pt q + kp) - (mu : ℂ) • 1)) (fun y => -(v q a a b b * fermi (y * beta) / kmesh.length)) a b).sum := by
  refine list_sum_part2 _ _ _ fun q => ?_
  rw [matFun_apply]
  refine Finset.sum_congr rfl fun l _ => ?_
  ring

theorem g0wDynamicAt_apply (eig : Eig o) {K : Type*} [AddCommGroup K] (mu beta : ℝ) (ek : K → Matrix o o ℂ) (pt : Lat n → K)
    (kmesh : List (Lat n)) (fmesh : List ℝ) (step : ℝ) (W : ℝ → Lat n → Bubble.T4 o) (v : Lat n → Bubble.T4 o) (z : ℂ) (kp : K)
    (a b : o) :
    g0wDynamicAt eig mu beta ek pt kmesh fmesh step W v z kp a b = (kmesh.map fun q =>
      matFun (eig (ek (pt q + kp) - (mu : ℂ) • 1)) (fun y => (fmesh.map fun fp => ((wSpec W v fp q a b : ℝ) : ℂ)
        * ((bose (fp * beta) + fermi (y * beta) : ℝ) : ℂ) / (z + fp - y) * step / kmesh.length).sum) a b).sum := by
  refine list_sum_part2 _ _ _ fun q => ?_
  rw [matFun_apply]
  refine Finset.sum_congr rfl fun l _ => ?_
  rw [List.sum_map_mul_left]
  ring

/-- C127: the one shot GW self energy. -/
theorem C127_g0w (hi : Function.Injective ι) {eig : Eig o} {eig' : Eig s} (hs : EigSpec eig) (hs' : EigSpec eig') {K : Type*}
    [AddCommGroup K] (mu beta : ℝ) (ek : K → Matrix o o ℂ) (he : ∀ k, (ek k).IsHermitian) (ha : ∀ k, Apart (Set.range ι) (ek k))
    (pt : Lat n → K) (kmesh : List (Lat n)) (fmesh : List ℝ) (step : ℝ) (W : ℝ → Lat n → Bubble.T4 o) (v : Lat n → Bubble.T4 o)
    (z : ℂ) (kp : K) :
    g0wStatic eig' mu beta (fun k => part ι (ek k)) pt kmesh (fun q => cut ι (v q)) kp
        = part2 ι (g0wStatic eig mu beta ek pt kmesh v kp) ∧
      g0wDynamicAt eig' mu beta (fun k => part ι (ek k)) pt kmesh fmesh step (fun f q => cut ι (W f q)) (fun q => cut ι (v q)) z kp
        = part2 ι (g0wDynamicAt eig mu beta ek pt kmesh fmesh step W v z kp) ∧
      Apart (Set.range ι) (Matrix.of (g0wStatic eig mu beta ek pt kmesh v kp)) ∧
      Apart (Set.range ι) (Matrix.of (g0wDynamicAt eig mu beta ek pt kmesh fmesh step W v z kp)) := by
  have hh : ∀ k, (ek k - (mu : ℂ) • 1).IsHermitian := fun k => (he k).sub (by
    rw [Matrix.IsHermitian, conjTranspose_smul, conjTranspose_one]; simp)
  have hd : ∀ k, Diag (ek k - (mu : ℂ) • 1) (eig (ek k - (mu : ℂ) • 1)) := fun k => hs _ (hh k)
  have hd' : ∀ k, Diag (part ι (ek k - (mu : ℂ) • 1)) (eig' (part ι (ek k) - (mu : ℂ) • 1)) := fun k => by
    rw [part_shift hi, ← part_shift hi]
    have := hs' _ ((hh k).submatrix ι)
    rw [show (ek k - (mu : ℂ) • (1 : Matrix o o ℂ)).submatrix ι ι = part ι (ek k) - (mu : ℂ) • 1 from part_shift hi _ _] at this
    rw [part_shift hi]
    exact this
  have hm : ∀ (k : K) (f : ℝ → ℂ) (a b : s), matFun (eig' (part ι (ek k) - (mu : ℂ) • 1)) f a b
      = matFun (eig (ek k - (mu : ℂ) • 1)) f (ι a) (ι b) := fun k f a b =>
    (congrFun (congrFun (matFun_part hi (shift_apart (ha k) _) (hd k) (hd' k) f) a) b).symm
  have hz : ∀ (k : K) (f : ℝ → ℂ) (a b : o), ¬(a ∈ Set.range ι ↔ b ∈ Set.range ι) →
      matFun (eig (ek k - (mu : ℂ) • 1)) f a b = 0 := fun k f a b h =>
    (matFun_apart (shift_apart (ha k) _) (hd k) f a b).resolve_left h
  refine ⟨?_, ?_, ?_, ?_⟩
  · funext a b
    change _ = g0wStatic eig mu beta ek pt kmesh v kp (ι a) (ι b)
    rw [g0wStatic_apply, g0wStatic_apply]
    refine list_sum_part2 _ _ _ fun q => ?_
    rw [hm]
    rfl
  · funext a b
    change _ = g0wDynamicAt eig mu beta ek pt kmesh fmesh step W v z kp (ι a) (ι b)
    rw [g0wDynamicAt_apply, g0wDynamicAt_apply]
    refine list_sum_part2 _ _ _ fun q => ?_
    rw [hm]
    rfl
  · intro a b
    by_cases h : a ∈ Set.range ι ↔ b ∈ Set.range ι
    · exact .inl h
    · refine .inr ?_
      change g0wStatic eig mu beta ek pt kmesh v kp a b = 0
      rw [g0wStatic_apply]
      refine List.sum_eq_zero fun x hx => ?_
      obtain ⟨q, _, rfl⟩ := List.mem_map.1 hx
      exact hz _ _ _ _ h
  · intro a b
    by_cases h : a ∈ Set.range ι ↔ b ∈ Set.range ι
    · exact .inl h
    · refine .inr ?_
      change g0wDynamicAt eig mu beta ek pt kmesh fmesh step W v z kp a b = 0
      rw [g0wDynamicAt_apply]
      refine List.sum_eq_zero fun x hx => ?_
      obtain ⟨q, _, rfl⟩ := List.mem_map.1 hx
      exact hz _ _ _ _ h

end Lattice

end Verif.Subsystem
