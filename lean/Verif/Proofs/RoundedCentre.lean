import Verif.Proofs.RoundedPhi

/-! The first guess of inv_Phi in the central region, in the arithmetic of `double`. -/
namespace Trng.Inverse
open XR Machine Spec Rounded Acklam PolyBound
open Classical

variable {M : Machine} {d : ℝ}

theorem pev_aP (r : ℝ) : pev aP r = 10 ^ 15 * centreNE r := by simp only [pev, aP, centreNE]; push_cast; ring
theorem pev_bP (r : ℝ) : pev bP r = 10 ^ 15 * centreDE r := by simp only [pev, bP, centreDE]; push_cast; ring

/-- the denominator of the central region minus 0.002, times 10^15 -/
def bP2 : List Int := [998000000000000, -13280681552885720, 66801311887719720, -155698979859886600, 161585836858040900, -54476098798224060]
theorem b2_pos : pieceOk 600 bP2 bP2 0 2263381 10000000 1 1 1 = true := by decide +kernel

theorem centreDE_ge {r : ℝ} (h0 : 0 ≤ r) (h1 : r ≤ 0.2263381) : 0.002 ≤ centreDE r := by
  have h := (piece_bound (by decide) (by decide) (by decide) b2_pos (x := r) (by push_cast; simpa using h0)
    (by push_cast; norm_num at h1 ⊢; linarith)).1
  have e : pev bP2 r = 10 ^ 15 * (centreDE r - 0.002) := by simp only [pev, bP2, centreDE]; push_cast; ring
  rw [e] at h
  linarith

theorem AC_eq {q : ℝ} : AC q = centreNE (q * q) * q / centreDE (q * q) := by
  rw [AC, pev_aP, pev_bP, sq, show q * (10 ^ 15 * centreNE (q * q)) = 10 ^ 15 * (centreNE (q * q) * q) by ring,
    mul_div_mul_left _ _ (by positivity)]

/-- The effect of a change of the argument on one step of Horner's rule. -/
theorem horner_lip {p p' r ρ c e A B A' B' : ℝ} (hr0 : 0 ≤ r) (hr : r ≤ 0.2264) (hρ0 : 0 ≤ ρ) (hρ : ρ ≤ 0.2264) (he : |r - ρ| ≤ e)
    (h : |p - p'| ≤ A * e ∧ |p'| ≤ B) (hA : 0.2264 * A + B ≤ A') (hB : B * 0.2264 + |c| ≤ B') :
    |(p * r + c) - (p' * ρ + c)| ≤ A' * e ∧ |p' * ρ + c| ≤ B' := by
  have he0 : 0 ≤ e := (abs_nonneg _).trans he
  have hA0 : 0 ≤ A * e := (abs_nonneg _).trans h.1
  have hB0 : 0 ≤ B := (abs_nonneg _).trans h.2
  constructor
  · have t := abs_add_le ((p - p') * r) (p' * (r - ρ))
    rw [show (p - p') * r + p' * (r - ρ) = (p * r + c) - (p' * ρ + c) by ring, abs_mul, abs_mul, abs_of_nonneg hr0] at t
    have t1 : |p - p'| * r ≤ A * e * 0.2264 := mul_le_mul h.1 hr hr0 hA0
    have t2 : |p'| * |r - ρ| ≤ B * e := mul_le_mul h.2 he (abs_nonneg _) hB0
    have t3 : (0.2264 * A + B) * e ≤ A' * e := mul_le_mul_of_nonneg_right hA he0
    linarith
  · have t := abs_add_le (p' * ρ) c
    rw [abs_mul, abs_of_nonneg hρ0] at t
    have t1 : |p'| * ρ ≤ B * 0.2264 := mul_le_mul h.2 hρ hρ0 hB0
    linarith

section lip
variable {r ρ e : ℝ} (hr0 : 0 ≤ r) (hr : r ≤ 0.2264) (hρ0 : 0 ≤ ρ) (hρ : ρ ≤ 0.2264) (he : |r - ρ| ≤ e)
include hr0 hr hρ0 hρ he

theorem centreNE_lip : |centreNE r - centreNE ρ| ≤ 150 * e ∧ |centreNE ρ| ≤ 21 := by
  have s0 : |(-3.969683028665376e+01 : ℝ) - (-3.969683028665376e+01)| ≤ 0 * e ∧ |(-3.969683028665376e+01 : ℝ)| ≤ 39.7 := by
    constructor
    · simp
    · norm_num [abs_le]
  have s1 := horner_lip (c := 2.209460984245205e+02) (A' := 39.7) (B' := 230) hr0 hr hρ0 hρ he s0 (by norm_num) (by norm_num [abs_of_pos, abs_of_neg])
  have s2 := horner_lip (c := -2.759285104469687e+02) (A' := 240) (B' := 329) hr0 hr hρ0 hρ he s1 (by norm_num) (by norm_num [abs_of_pos, abs_of_neg])
  have s3 := horner_lip (c := 1.383577518672690e+02) (A' := 384) (B' := 213) hr0 hr hρ0 hρ he s2 (by norm_num) (by norm_num [abs_of_pos, abs_of_neg])
  have s4 := horner_lip (c := -3.066479806614716e+01) (A' := 300) (B' := 79) hr0 hr hρ0 hρ he s3 (by norm_num) (by norm_num [abs_of_pos, abs_of_neg])
  exact horner_lip (c := 2.506628277459239e+00) (A' := 150) (B' := 21) hr0 hr hρ0 hρ he s4 (by norm_num) (by norm_num [abs_of_pos, abs_of_neg])

theorem centreDE_lip : |centreDE r - centreDE ρ| ≤ 80 * e ∧ |centreDE ρ| ≤ 10 := by
  have s0 : |(-5.447609879822406e+01 : ℝ) - (-5.447609879822406e+01)| ≤ 0 * e ∧ |(-5.447609879822406e+01 : ℝ)| ≤ 54.5 := by
    constructor
    · simp
    · norm_num [abs_le]
  have s1 := horner_lip (c := 1.615858368580409e+02) (A' := 54.5) (B' := 174) hr0 hr hρ0 hρ he s0 (by norm_num) (by norm_num [abs_of_pos, abs_of_neg])
  have s2 := horner_lip (c := -1.556989798598866e+02) (A' := 187) (B' := 196) hr0 hr hρ0 hρ he s1 (by norm_num) (by norm_num [abs_of_pos, abs_of_neg])
  have s3 := horner_lip (c := 6.680131188771972e+01) (A' := 239) (B' := 112) hr0 hr hρ0 hρ he s2 (by norm_num) (by norm_num [abs_of_pos, abs_of_neg])
  have s4 := horner_lip (c := -1.328068155288572e+01) (A' := 167) (B' := 39) hr0 hr hρ0 hρ he s3 (by norm_num) (by norm_num [abs_of_pos, abs_of_neg])
  exact horner_lip (c := 1) (A' := 80) (B' := 10) hr0 hr hρ0 hρ he s4 (by norm_num) (by norm_num [abs_of_pos, abs_of_neg])
end lip

theorem centreNA_le {r : ℝ} (h0 : 0 ≤ r) (h1 : r ≤ 0.2264) : centreNA r ≤ 21 := by
  unfold centreNA
  calc _ ≤ (((((3.969683028665376e+01 * 0.2264 + 2.209460984245205e+02) * 0.2264 + 2.759285104469687e+02) * 0.2264 + 1.383577518672690e+02) * 0.2264 + 3.066479806614716e+01) * 0.2264 + 2.506628277459239e+00 : ℝ) := by gcongr
    _ ≤ 21 := by norm_num
theorem centreDA_le {r : ℝ} (h0 : 0 ≤ r) (h1 : r ≤ 0.2264) : centreDA r ≤ 10 := by
  unfold centreDA
  calc _ ≤ (((((5.447609879822406e+01 * 0.2264 + 1.615858368580409e+02) * 0.2264 + 1.556989798598866e+02) * 0.2264 + 6.680131188771972e+01) * 0.2264 + 1.328068155288572e+01) * 0.2264 + 1 : ℝ) := by gcongr
    _ ≤ 10 := by norm_num

theorem mul_self_rnd (D : DoubleWithin M d) {q r : ℝ} (h : M.mul (fin q) (fin q) = fin r) : 0 ≤ r := by
  rw [Machine.mul_fin, D.rnd, ieee_nonneg (mul_self_nonneg q)] at h
  split_ifs at h with c
  rw [← (fin_inj _ _).1 h]
  exact nearestPos_nonneg (mul_self_nonneg q)

/-- The quotient of the central region. -/
theorem centre_quot (D : DoubleWithin M d) {q : ℝ} (hq : |q| ≤ 0.47575003) :
    ∃ r y : ℝ, M.mul (fin q) (fin q) = fin r ∧ M.div (M.mul (centreNum M (fin r)) (fin q)) (centreDen M (fin r)) = fin y ∧ |y - AC q| ≤ 1e-10 := by
  have ht := tiny_le
  have ht0 := tiny_pos
  have hρ : q * q ≤ 0.2263381 := by
    have := mul_le_mul hq hq (abs_nonneg _) (by norm_num)
    rw [abs_mul_abs_self] at this
    exact this.trans (by norm_num)
  have hρ0 : 0 ≤ q * q := mul_self_nonneg q
  obtain ⟨r, er, hr⟩ := mul_err D (a := q) (b := q) (by rw [abs_of_nonneg hρ0]; linarith)
  have hr0 := mul_self_rnd D er
  rw [abs_of_nonneg hρ0] at hr
  have hr' : |r - q * q| ≤ 3e-17 := hr.trans (by linarith)
  obtain ⟨g1, g2⟩ := abs_le.1 hr'
  have hr1 : r ≤ 0.2264 := by linarith
  obtain ⟨n, en, hn⟩ := centreN_err D hr0 (by linarith)
  obtain ⟨b, eb, hb⟩ := centreD_err D hr0 (by linarith)
  obtain ⟨nl, nb⟩ := centreNE_lip hr0 hr1 hρ0 (by linarith) hr'
  obtain ⟨bl, -⟩ := centreDE_lip hr0 hr1 hρ0 (by linarith) hr'
  have hna := centreNA_le hr0 hr1
  have hda := centreDA_le hr0 hr1
  have hAC : |centreNE (q * q) * q / centreDE (q * q)| ≤ 1.98 := by rw [← AC_eq]; exact AC_le hq
  have hd0 := centreDE_ge hρ0 hρ
  rw [AC_eq]
  generalize centreNE (q * q) = N at *
  generalize centreDE (q * q) = B at *
  generalize centreNE r = N' at *
  generalize centreDE r = B' at *
  have hnN : |n - N| ≤ 5e-14 := by
    have := abs_add_le (n - N') (N' - N)
    rw [sub_add_sub_cancel] at this; linarith
  have hbB : |b - B| ≤ 2.5e-14 := by
    have := abs_add_le (b - B') (B' - B)
    rw [sub_add_sub_cancel] at this; linarith
  obtain ⟨b1, b2⟩ := abs_le.1 hbB
  have hb0 : 0.0019 ≤ b := by linarith
  have hbp : 0 < b := by linarith
  have hnq : |n * q| ≤ 11 := by
    have h1 : |n| ≤ 22 := by
      have := abs_add_le (n - N) N
      rw [sub_add_cancel] at this; linarith
    rw [abs_mul]
    calc |n| * |q| ≤ 22 * 0.5 := mul_le_mul h1 (by linarith) (abs_nonneg _) (by norm_num)
      _ = 11 := by norm_num
  obtain ⟨m, em, hm⟩ := mul_err D (a := n) (b := q) (hnq.trans (by norm_num))
  have hmN : |m - N * q| ≤ 3e-14 := by
    have t := abs_add_le (m - n * q) ((n - N) * q)
    rw [show m - n * q + (n - N) * q = m - N * q by ring, abs_mul (n - N)] at t
    have t1 : |n - N| * |q| ≤ 5e-14 * 0.5 := mul_le_mul hnN (by linarith) (abs_nonneg _) (by norm_num)
    linarith
  have hquot : |m / b - N * q / B| ≤ 7e-11 := by
    have hB0 : B ≠ 0 := by linarith
    have e : m / b - N * q / B = ((m - N * q) + N * q / B * (B - b)) / b := by field_simp; ring
    rw [e, abs_div, abs_of_pos hbp, div_le_iff₀ hbp]
    have t := abs_add_le (m - N * q) (N * q / B * (B - b))
    rw [abs_mul] at t
    have t1 : |N * q / B| * |B - b| ≤ 1.98 * 2.5e-14 := mul_le_mul hAC (by rwa [abs_sub_comm]) (abs_nonneg _) (by norm_num)
    linarith
  have hmb : |m / b| ≤ 2 := by
    have := abs_add_le (m / b - N * q / B) (N * q / B)
    rw [sub_add_cancel] at this; linarith
  obtain ⟨y, ey, hy⟩ := div_err D (a := m) hbp.ne' (hmb.trans (by norm_num))
  refine ⟨r, y, er, by rw [en, eb, em, ey], ?_⟩
  have := abs_add_le (y - m / b) (m / b - N * q / B)
  rw [sub_add_sub_cancel] at this; linarith

/-- The first guess in the central region. -/
theorem centre_guess (D : DoubleWithin M d) {x z : ℝ} (h0 : 0.02424998 ≤ x) (h1 : x ≤ 1 - 0.02424998) (hz : PhiR z = x) :
    |z| ≤ 2 ∧ ∃ q r y : ℝ, M.sub (fin x) (fin (1 / 2)) = fin q ∧ M.mul (fin q) (fin q) = fin r ∧
      M.div (M.mul (centreNum M (fin r)) (fin q)) (centreDen M (fin r)) = fin y ∧ |y - z| ≤ 1.3e-6 := by
  have ht := tiny_le
  have ht0 := tiny_pos
  obtain ⟨hz2, -⟩ := quantile_centre (by linarith) (by linarith) hz
  have hx : |x - 1 / 2| ≤ 0.47575002 := abs_le.2 ⟨by linarith, by linarith⟩
  obtain ⟨q, eq', hq⟩ := sub_err D (a := x) (b := 1 / 2) (hx.trans (by norm_num))
  obtain ⟨q1, q2⟩ := abs_le.1 (hq.trans (show _ ≤ 6e-17 by linarith))
  have hq0 : |q| ≤ 0.47575003 := abs_le.2 ⟨by linarith, by linarith⟩
  obtain ⟨r, y, er, ey, hy⟩ := centre_quot D hq0
  refine ⟨hz2, q, r, y, eq', er, ey, ?_⟩
  obtain ⟨w, hw⟩ := exists_PhiR (u := q + 1 / 2) (by linarith) (by linarith)
  obtain ⟨w2, hw3⟩ := quantile_centre (u := q + 1 / 2) (by linarith) (by linarith) hw
  rw [add_sub_cancel_right] at hw3
  obtain ⟨z1, z2⟩ := abs_le.1 hz2
  obtain ⟨w1, w2⟩ := abs_le.1 w2
  have hwz : |w - z| ≤ 1e-8 := by
    rcases le_total w z with c | c
    · have := PhiR_growth w1 c z2
      rw [hz, hw] at this
      exact abs_le.2 ⟨by linarith, by linarith⟩
    · have := PhiR_growth z1 c w2
      rw [hz, hw] at this
      exact abs_le.2 ⟨by linarith, by linarith⟩
  have t1 := abs_add_le (y - AC q) (AC q - w)
  have t2 := abs_add_le (y - w) (w - z)
  rw [sub_add_sub_cancel] at t1 t2
  linarith

end Trng.Inverse
