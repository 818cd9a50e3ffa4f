import Verif.HubbardAtom.Rewrite

/-!
# Frequency products of susceptibility, vertex and bubble
-/

noncomputable section

namespace Verif.HubbardAtom

open Complex

theorem pp_refl (beta : ℝ) (m n : ℤ) : pp beta m (-m - n - 1) = pp beta m n := by
  rw [pp, pp, nu_add_om, nu_add_om, show -m - n - 1 + m = -n - 1 by ring,
    show -m - n - 1 = -(n + m) - 1 by ring, nu_neg, nu_neg]
  ring

theorem nn_refl (beta U : ℝ) (m n : ℤ) : nn beta U m (-m - n - 1) = nn beta U m n := by
  rw [nn_eq, nn_eq, pp_refl]

theorem hasSum_kr (f : ℤ → ℂ) (n : ℤ) : HasSum (fun k => kr k n * f k) (f n) := by
  refine (hasSum_single n fun k hk => ?_).congr_val ?_
  · simp [kr, hk]
  · simp [kr]

theorem hasSum_kr' (f : ℤ → ℂ) (n : ℤ) : HasSum (fun k => kr n k * f k) (f n) := by
  refine (hasSum_single n fun k hk => ?_).congr_val ?_
  · simp [kr, hk.symm]
  · simp [kr]

theorem kr_refl (m n k : ℤ) : kr n (-m - k - 1) = kr (-m - n - 1) k := by
  rw [kr, kr]
  congr 1
  apply propext
  constructor <;> intro h <;> omega

theorem kr_refl' (m n k : ℤ) : kr (-m - n - 1) (-m - k - 1) = kr n k := by
  rw [kr, kr]
  congr 1
  apply propext
  constructor <;> intro h <;> omega

theorem hasSum_kr_refl (f : ℤ → ℂ) (m n : ℤ) : HasSum (fun k => kr n (-m - k - 1) * f k) (f (-m - n - 1)) :=
  (hasSum_kr' f (-m - n - 1)).congr_fun fun k => by rw [kr_refl]

theorem kr_mul (f : ℤ → ℂ) (n k : ℤ) : kr n k * f k = kr n k * f n := by
  rw [kr]
  split_ifs with h
  · rw [h]
  · simp

/-- even part of the vertex -/
def ge (beta U : ℝ) (m n : ℤ) : ℂ :=
  beta / 2 * zB beta U * nn beta U m n / ((pp beta m n - zB beta U) * pp beta m n)

/-- odd part of the vertex -/
def go (beta U : ℝ) (m n : ℤ) : ℂ :=
  beta / 2 * (-(U ^ 2 / 4)) * nn beta U m n / ((pp beta m n + U ^ 2 / 4) * pp beta m n)

theorem ge_refl (beta U : ℝ) (m n : ℤ) : ge beta U m (-m - n - 1) = ge beta U m n := by
  rw [ge, ge, pp_refl, nn_refl]

theorem go_refl (beta U : ℝ) (m n : ℤ) : go beta U m (-m - n - 1) = go beta U m n := by
  rw [go, go, pp_refl, nn_refl]

/-- `1 / (p - z)` -/
def uu (beta U : ℝ) (m n : ℤ) : ℂ := 1 / (pp beta m n - zB beta U)

theorem gamma_split {beta U : ℝ} (hb : 0 < beta) (m n k : ℤ) :
    gamma beta U m n k = -1 / beta ^ 2 *
      (kr n k * (ge beta U m n + go beta U m n) + kr n (-m - k - 1) * (ge beta U m n - go beta U m n)
        + vD beta U (iw beta m) * uu beta U m n * uu beta U m k - U) := gamma_eq hb m n k

/-- sum of an even function times the vertex -/
theorem hasSum_mul_gamma {beta U : ℝ} (hb : 0 < beta) (m k : ℤ) {q : ℤ → ℂ} {J K : ℂ}
    (hq : ∀ n, q (-m - n - 1) = q n) (hJ : HasSum q J) (hK : HasSum (fun n => q n * uu beta U m n) K) :
    HasSum (fun n => q n * gamma beta U m n k)
      (-1 / beta ^ 2 * (2 * q k * ge beta U m k + vD beta U (iw beta m) * uu beta U m k * K - U * J)) := by
  have h1 := hasSum_kr (fun n => q n * (ge beta U m n + go beta U m n)) k
  have h2 := hasSum_kr (fun n => q n * (ge beta U m n - go beta U m n)) (-m - k - 1)
  have h3 := hK.mul_left (vD beta U (iw beta m) * uu beta U m k)
  have h4 := hJ.mul_left (U : ℂ)
  refine ((((h1.add h2).add h3).sub h4).mul_left (-1 / (beta : ℂ) ^ 2)).congr_val ?_ |>.congr_fun fun n => ?_
  · simp only [hq, ge_refl, go_refl]
    ring
  · rw [gamma_split hb]
    ring

/-- the bubble -/
theorem chi0_eq {beta : ℝ} (hb : 0 < beta) {U : ℝ} (hU : 0 < U) (m n k : ℤ) :
    chi0 beta U m n k = kr n k * (beta * pp beta m n / nn beta U m n) := by
  have hg : ∀ n, g beta U n = -I * nu beta n / (nu beta n ^ 2 + U ^ 2 / 4) := by
    intro n
    have hv : (nu beta n : ℂ) ≠ 0 := by exact_mod_cast nu_ne_zero hb n
    have hiv : iv beta n = I * nu beta n := by
      rw [iv, nu]
    have hI := I_ne_zero
    have hd : (nu beta n : ℂ) ^ 2 + U ^ 2 / 4 ≠ 0 := by
      have : nu beta n ^ 2 + U ^ 2 / 4 ≠ 0 := by positivity
      exact_mod_cast this
    rw [g, hiv]
    have e : I * (nu beta n : ℂ) - U * U / (4 * (I * nu beta n)) = I * (nu beta n ^ 2 + U ^ 2 / 4) / nu beta n := by
      field_simp
      linear_combination (-(U : ℂ) ^ 2 + 0) * I_sq
    rw [e, one_div_div, div_eq_div_iff (mul_ne_zero hI hd) hd]
    linear_combination ((nu beta n : ℂ) * (nu beta n ^ 2 + U ^ 2 / 4)) * I_sq
  rw [chi0, FreqConv.chi0PH]
  have hk : (FreqConv.kr n k : ℂ) = kr n k := rfl
  rw [hk, hg, hg, show m + n = n + m by ring, nn, pp]
  simp only [← nu_add_om]
  push_cast
  rw [mul_comm (-(beta : ℂ)), mul_assoc, mul_assoc]
  refine congrArg _ ?_
  obtain ⟨x, hx⟩ : ∃ x : ℂ, x = (nu beta n : ℂ) ^ 2 + U ^ 2 / 4 := ⟨_, rfl⟩
  obtain ⟨y, hy⟩ : ∃ y : ℂ, y = ((nu beta n : ℂ) + om beta m) ^ 2 + U ^ 2 / 4 := ⟨_, rfl⟩
  rw [← hx, ← hy]
  linear_combination (-(beta : ℂ) * nu beta n * (nu beta n + om beta m) / x / y) * I_sq

/-- coefficient of the diagonal of the susceptibility -/
def ca (beta U : ℝ) (m n : ℤ) : ℂ := beta / 2 * (2 * pp beta m n - zB beta U + U ^ 2 / 4) / nn beta U m n

/-- coefficient of the reflected diagonal of the susceptibility -/
def cb (beta U : ℝ) (m n : ℤ) : ℂ := beta / 2 * (-zB beta U - U ^ 2 / 4) / nn beta U m n

/-- even function of `b1` -/
def q1 (beta U : ℝ) (m n : ℤ) : ℂ := (pp beta m n - cD beta U m) / nn beta U m n

/-- even function of `b2` -/
def q2 (beta U : ℝ) (m n : ℤ) : ℂ := 1 / nn beta U m n

theorem q1_refl (beta U : ℝ) (m n : ℤ) : q1 beta U m (-m - n - 1) = q1 beta U m n := by rw [q1, q1, pp_refl, nn_refl]

theorem q2_refl (beta U : ℝ) (m n : ℤ) : q2 beta U m (-m - n - 1) = q2 beta U m n := by rw [q2, q2, nn_refl]

theorem chi_split {U : ℝ} (hU : 0 < U) (beta : ℝ) (m n k : ℤ) :
    chi beta U m n k = kr n k * ca beta U m n + kr n (-m - k - 1) * cb beta U m n
      + s1 beta U m * q1 beta U m n * q1 beta U m k + s2 beta U m * q2 beta U m n * q2 beta U m k := chi_eq hU beta m n k

/-- the sums that enter -/
structure Sums (beta U : ℝ) (m : ℤ) (L0 P0 L1 : ℂ) : Prop where
  h0 : HasSum (fun n : ℤ => 1 / (nn beta U m n : ℂ)) L0
  h1 : HasSum (fun n : ℤ => (pp beta m n : ℂ) / nn beta U m n) P0
  hL : HasSum (fun n : ℤ => 1 / ((pp beta m n : ℂ) - zB beta U) / nn beta U m n) L1

theorem hasSum_q1 {beta U : ℝ} {m : ℤ} {L0 P0 : ℂ} (h0 : HasSum (fun n : ℤ => 1 / (nn beta U m n : ℂ)) L0)
    (h1 : HasSum (fun n : ℤ => (pp beta m n : ℂ) / nn beta U m n) P0) :
    HasSum (q1 beta U m) (P0 - cD beta U m * L0) :=
  (h1.sub (h0.mul_left (cD beta U m))).congr_fun fun n => by rw [q1]; ring

theorem hasSum_q1u {beta U : ℝ} (hU : 0 < U) {m : ℤ} {L0 P0 L1 : ℂ} (hz : ∀ n, (pp beta m n : ℂ) ≠ zB beta U)
    (hs : Sums beta U m L0 P0 L1) :
    HasSum (fun n => q1 beta U m n * uu beta U m n) (L0 + (zB beta U - cD beta U m) * L1) := by
  refine (hs.h0.add (hs.hL.mul_left (zB beta U - cD beta U m))).congr_fun fun n => ?_
  rw [uu, q1]
  have hz' := sub_ne_zero.mpr (hz n)
  have hn : (nn beta U m n : ℂ) ≠ 0 := by exact_mod_cast (nn_pos hU beta m n).ne'
  field_simp
  ring

theorem hasSum_q2u {beta U : ℝ} {m : ℤ} {L0 P0 L1 : ℂ} (hs : Sums beta U m L0 P0 L1) :
    HasSum (fun n => q2 beta U m n * uu beta U m n) L1 :=
  hs.hL.congr_fun fun n => by rw [uu, q2]; ring

/-- the sum over the inner frequency of the Bethe-Salpeter equation -/
theorem hasSum_chi_gamma {beta U : ℝ} (hb : 0 < beta) (hU : 0 < U) (m n k : ℤ) {L0 P0 L1 : ℂ}
    (hz : ∀ n, (pp beta m n : ℂ) ≠ zB beta U) (hs : Sums beta U m L0 P0 L1) :
    HasSum (fun j => chi beta U m n j * gamma beta U m j k)
      (ca beta U m n * gamma beta U m n k + cb beta U m n * gamma beta U m (-m - n - 1) k
        + s1 beta U m * q1 beta U m n * (-1 / beta ^ 2 * (2 * q1 beta U m k * ge beta U m k
            + vD beta U (iw beta m) * uu beta U m k * (L0 + (zB beta U - cD beta U m) * L1)
            - U * (P0 - cD beta U m * L0)))
        + s2 beta U m * q2 beta U m n * (-1 / beta ^ 2 *
          (2 * q2 beta U m k * ge beta U m k + vD beta U (iw beta m) * uu beta U m k * L1 - U * L0))) := by
  have a1 := (hasSum_kr' (fun j => gamma beta U m j k) n).mul_left (ca beta U m n)
  have a2 := (hasSum_kr_refl (fun j => gamma beta U m j k) m n).mul_left (cb beta U m n)
  have a3 := (hasSum_mul_gamma hb m k (q1_refl beta U m) (hasSum_q1 hs.h0 hs.h1) (hasSum_q1u hU hz hs)).mul_left
    (s1 beta U m * q1 beta U m n)
  have a4 := (hasSum_mul_gamma hb m k (q2_refl beta U m) hs.h0 (hasSum_q2u hs)).mul_left
    (s2 beta U m * q2 beta U m n)
  refine (((a1.add a2).add a3).add a4).congr_fun fun j => ?_
  rw [chi_split hU]
  ring

/-- the polynomial that vanishes exactly if the Bethe-Salpeter equation holds -/
def defect (beta U : ℝ) (m : ℤ) (L0 P0 L1 P Q : ℂ) : ℂ :=
  let z : ℂ := zB beta U
  let D := cD beta U m
  let Dw := vD beta U (iw beta m)
  let J0 := P0 - D * L0
  let J1 := L0 + (z - D) * L1
  Dw - U * (P - z) * (Q - z)
    + s1 beta U m * (P - D) * (Q - D + Dw * J1 / beta - (Q - z) * U * J0 / beta)
    + s2 beta U m * (1 + Dw * L1 / beta - (Q - z) * U * L0 / beta)

theorem uu_refl (beta U : ℝ) (m n : ℤ) : uu beta U m (-m - n - 1) = uu beta U m n := by rw [uu, uu, pp_refl]

/-- value of the bubble -/
def cc (beta U : ℝ) (m n : ℤ) : ℂ := beta * pp beta m n / nn beta U m n

theorem diag_one {beta U : ℝ} (hb : 0 < beta) (hU : 0 < U) (m n : ℤ) (hz : (pp beta m n : ℂ) ≠ zB beta U)
    (ha : (pp beta m n : ℂ) ≠ -(U ^ 2 / 4)) :
    -1 / (beta : ℂ) ^ 2 * cc beta U m n
      * (ca beta U m n * (ge beta U m n + go beta U m n) + cb beta U m n * (ge beta U m n - go beta U m n))
      = ca beta U m n - cc beta U m n := by
  have hb' : (beta : ℂ) ≠ 0 := by exact_mod_cast hb.ne'
  have hn : (nn beta U m n : ℂ) ≠ 0 := by exact_mod_cast (nn_pos hU beta m n).ne'
  have hp : (pp beta m n : ℂ) ≠ 0 := by exact_mod_cast pp_ne_zero hb m n
  have hz' := sub_ne_zero.mpr hz
  have ha' : (pp beta m n : ℂ) + U ^ 2 / 4 ≠ 0 := fun h => ha (by linear_combination h)
  have h : ∀ p N z a : ℂ, p ≠ 0 → N ≠ 0 → p - z ≠ 0 → p + a ≠ 0 →
      -1 / (beta : ℂ) ^ 2 * (beta * p / N) * (beta / 2 * (2 * p - z + a) / N
        * (beta / 2 * z * N / ((p - z) * p) + beta / 2 * (-a) * N / ((p + a) * p))
        + beta / 2 * (-z - a) / N * (beta / 2 * z * N / ((p - z) * p) - beta / 2 * (-a) * N / ((p + a) * p)))
      = beta / 2 * (2 * p - z + a) / N - beta * p / N := by
    intro p N z a h1 h2 h3 h4
    field_simp
    ring
  exact h _ _ _ _ hp hn hz' ha'

theorem diag_two {beta U : ℝ} (hb : 0 < beta) (hU : 0 < U) (m n : ℤ) (hz : (pp beta m n : ℂ) ≠ zB beta U)
    (ha : (pp beta m n : ℂ) ≠ -(U ^ 2 / 4)) :
    -1 / (beta : ℂ) ^ 2 * cc beta U m n
      * (ca beta U m n * (ge beta U m n - go beta U m n) + cb beta U m n * (ge beta U m n + go beta U m n))
      = cb beta U m n := by
  have hb' : (beta : ℂ) ≠ 0 := by exact_mod_cast hb.ne'
  have hn : (nn beta U m n : ℂ) ≠ 0 := by exact_mod_cast (nn_pos hU beta m n).ne'
  have hp : (pp beta m n : ℂ) ≠ 0 := by exact_mod_cast pp_ne_zero hb m n
  have hz' := sub_ne_zero.mpr hz
  have ha' : (pp beta m n : ℂ) + U ^ 2 / 4 ≠ 0 := fun h => ha (by linear_combination h)
  have h : ∀ p N z a : ℂ, p ≠ 0 → N ≠ 0 → p - z ≠ 0 → p + a ≠ 0 →
      -1 / (beta : ℂ) ^ 2 * (beta * p / N) * (beta / 2 * (2 * p - z + a) / N
        * (beta / 2 * z * N / ((p - z) * p) - beta / 2 * (-a) * N / ((p + a) * p))
        + beta / 2 * (-z - a) / N * (beta / 2 * z * N / ((p - z) * p) + beta / 2 * (-a) * N / ((p + a) * p)))
      = beta / 2 * (-z - a) / N := by
    intro p N z a h1 h2 h3 h4
    field_simp
    ring
  exact h _ _ _ _ hp hn hz' ha'

/-- the part of the Bethe-Salpeter equation off the two diagonals -/
theorem cross {beta U : ℝ} (hb : 0 < beta) (hU : 0 < U) (m n k : ℤ) (L0 P0 L1 : ℂ)
    (hz : ∀ n, (pp beta m n : ℂ) ≠ zB beta U) :
    ((ca beta U m n + cb beta U m n)
        * (-1 / beta ^ 2 * (vD beta U (iw beta m) * uu beta U m n * uu beta U m k - U))
      + s1 beta U m * q1 beta U m n * (-1 / beta ^ 2 * (2 * q1 beta U m k * ge beta U m k
          + vD beta U (iw beta m) * uu beta U m k * (L0 + (zB beta U - cD beta U m) * L1)
          - U * (P0 - cD beta U m * L0)))
      + s2 beta U m * q2 beta U m n * (-1 / beta ^ 2 *
          (2 * q2 beta U m k * ge beta U m k + vD beta U (iw beta m) * uu beta U m k * L1 - U * L0))) * cc beta U m k
      = s1 beta U m * q1 beta U m n * q1 beta U m k + s2 beta U m * q2 beta U m n * q2 beta U m k
        - pp beta m k / (nn beta U m n * nn beta U m k * (pp beta m k - zB beta U))
          * defect beta U m L0 P0 L1 (pp beta m n) (pp beta m k) := by
  have hb' : (beta : ℂ) ≠ 0 := by exact_mod_cast hb.ne'
  have hn : (nn beta U m n : ℂ) ≠ 0 := by exact_mod_cast (nn_pos hU beta m n).ne'
  have hk : (nn beta U m k : ℂ) ≠ 0 := by exact_mod_cast (nn_pos hU beta m k).ne'
  have hp : (pp beta m k : ℂ) ≠ 0 := by exact_mod_cast pp_ne_zero hb m k
  have hzn := sub_ne_zero.mpr (hz n)
  have hzk := sub_ne_zero.mpr (hz k)
  have h : ∀ p N q M z a D w S1 S2 u : ℂ, q ≠ 0 → N ≠ 0 → M ≠ 0 → p - z ≠ 0 → q - z ≠ 0 →
      ((beta / 2 * (2 * p - z + a) / N + beta / 2 * (-z - a) / N)
        * (-1 / (beta : ℂ) ^ 2 * (w * (1 / (p - z)) * (1 / (q - z)) - u))
      + S1 * ((p - D) / N) * (-1 / (beta : ℂ) ^ 2 * (2 * ((q - D) / M) * (beta / 2 * z * M / ((q - z) * q))
          + w * (1 / (q - z)) * (L0 + (z - D) * L1) - u * (P0 - D * L0)))
      + S2 * (1 / N) * (-1 / (beta : ℂ) ^ 2 *
          (2 * (1 / M) * (beta / 2 * z * M / ((q - z) * q)) + w * (1 / (q - z)) * L1 - u * L0))) * (beta * q / M)
      = S1 * ((p - D) / N) * ((q - D) / M) + S2 * (1 / N) * (1 / M)
        - q / (N * M * (q - z)) * (w - u * (p - z) * (q - z)
          + S1 * (p - D) * (q - D + w * (L0 + (z - D) * L1) / beta - (q - z) * u * (P0 - D * L0) / beta)
          + S2 * (1 + w * L1 / beta - (q - z) * u * L0 / beta)) := by
    intro p N q M z a D w S1 S2 u h1 h2 h3 h4 h5
    field_simp
    ring
  exact h _ _ _ _ _ _ _ _ _ _ _ hp hn hk hzn hzk

/-- the defect of the Bethe-Salpeter equation -/
theorem bse_defect {beta U : ℝ} (hb : 0 < beta) (hU : 0 < U) (m n k : ℤ) {L0 P0 L1 : ℂ}
    (hz : ∀ n, (pp beta m n : ℂ) ≠ zB beta U) (ha : ∀ n, (pp beta m n : ℂ) ≠ -(U ^ 2 / 4))
    (hs : Sums beta U m L0 P0 L1) :
    HasSum (fun j => chi beta U m n j * gamma beta U m j k * chi0 beta U m k k)
      (chi beta U m n k - chi0 beta U m n k
        - pp beta m k / (nn beta U m n * nn beta U m k * (pp beta m k - zB beta U))
          * defect beta U m L0 P0 L1 (pp beta m n) (pp beta m k)) := by
  refine ((hasSum_chi_gamma hb hU m n k hz hs).mul_right (chi0 beta U m k k)).congr_val ?_
  have e0 : ∀ j, chi0 beta U m j k = kr j k * cc beta U m j := fun j => chi0_eq hb hU m j k
  have ek : kr k k = 1 := by simp [kr]
  have hd1 := kr_mul (cc beta U m) n k
  have hd2 : kr n (-m - k - 1) * cc beta U m k = kr n (-m - k - 1) * cc beta U m n := by
    have := kr_mul (cc beta U m) n (-m - k - 1)
    rwa [show cc beta U m (-m - k - 1) = cc beta U m k by rw [cc, cc, pp_refl, nn_refl]] at this
  rw [chi_split hU, e0, e0, ek, one_mul, gamma_split hb, gamma_split hb, kr_refl', ← kr_refl, ge_refl, go_refl, uu_refl]
  linear_combination
    (-1 / (beta : ℂ) ^ 2 * (ca beta U m n * (ge beta U m n + go beta U m n)
      + cb beta U m n * (ge beta U m n - go beta U m n))) * hd1
    + (-1 / (beta : ℂ) ^ 2 * (ca beta U m n * (ge beta U m n - go beta U m n)
      + cb beta U m n * (ge beta U m n + go beta U m n))) * hd2
    + kr n k * diag_one hb hU m n (hz n) (ha n) + kr n (-m - k - 1) * diag_two hb hU m n (hz n) (ha n)
    + cross hb hU m n k L0 P0 L1 hz

end Verif.HubbardAtom
