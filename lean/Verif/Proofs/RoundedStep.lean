import Verif.Proofs.RoundedPhi

/-! One Halley step of inv_Phi in the arithmetic of `double`. -/
namespace Trng.Inverse
open XR Machine Spec Rounded Acklam
open Classical

variable {M : Machine} {d : ℝ}

theorem s_close : |sqrt2piDouble - Real.sqrt (2 * Real.pi)| ≤ 5e-16 := by
  have p1 := Real.pi_gt_d20
  have p2 := Real.pi_lt_d20
  obtain ⟨s1, s2⟩ := sqrt2pi_bounds
  have hs : Real.sqrt (2 * Real.pi) ^ 2 = 2 * Real.pi := Real.sq_sqrt (by positivity)
  have hv : sqrt2piDouble = 5644425081792262 * 2 ^ (-51 : ℤ) := rfl
  have h0 : 2.5 ≤ sqrt2piDouble := by rw [hv]; norm_num
  have h1 : |sqrt2piDouble ^ 2 - 2 * Real.pi| ≤ 1.2e-15 := by
    rw [hv, abs_le]; norm_num at p1 p2 ⊢; constructor <;> linarith
  rw [← hs] at h1
  generalize Real.sqrt (2 * Real.pi) = b at *
  generalize sqrt2piDouble = a at *
  rw [show a ^ 2 - b ^ 2 = (a - b) * (a + b) by ring, abs_mul, abs_of_nonneg (show 0 ≤ a + b by linarith)] at h1
  nlinarith [abs_nonneg (a - b)]

theorem exp_step (D : DoubleWithin M d) (hd : d ≤ 9e-16) {y : ℝ} (hy : |y| ≤ 37.65) :
    ∃ E : ℝ, M.exp (M.mul (M.mul (fin y) (fin y)) (fin (1 / 2))) = fin E ∧ |E - Real.exp (y * y / 2)| ≤ 4e-13 * Real.exp (y * y / 2) := by
  have ht := tiny_le
  have ht0 := tiny_pos
  have hyy : |y * y| ≤ 1417.6 := by
    rw [abs_mul]
    calc |y| * |y| ≤ 37.65 * 37.65 := mul_le_mul hy hy (abs_nonneg _) (by norm_num)
      _ ≤ 1417.6 := by norm_num
  have hyy0 : 0 ≤ y * y := mul_self_nonneg y
  obtain ⟨m, em, hm⟩ := mul_err D (a := y) (b := y) (hyy.trans (by norm_num))
  rw [abs_of_nonneg hyy0] at hm hyy
  obtain ⟨m1, m2⟩ := abs_le.1 (hm.trans (show _ ≤ 1.71e-13 by linarith))
  have hm2 : |m * (1 / 2)| ≤ 709 := abs_le.2 ⟨by linarith, by linarith⟩
  obtain ⟨n, en, hn⟩ := mul_err D (a := m) (b := 1 / 2) (hm2.trans (by norm_num))
  obtain ⟨n1, n2⟩ := abs_le.1 (hn.trans (show _ ≤ 0.9e-13 by linarith))
  obtain ⟨E, eE, hE⟩ := D.exp n (by linarith)
  refine ⟨E, by rw [em, en, eE], ?_⟩
  have hx : |n - y * y / 2| ≤ 1.8e-13 := abs_le.2 ⟨by linarith, by linarith⟩
  have hx' := (abs_exp_sub_one hx (by norm_num)).trans (show _ ≤ (1.9e-13 : ℝ) by norm_num)
  have e : Real.exp n = Real.exp (y * y / 2) * Real.exp (n - y * y / 2) := by rw [← Real.exp_add]; congr 1; ring
  have h1 : 1 ≤ Real.exp (y * y / 2) := Real.one_le_exp (by linarith)
  have h2 : |Real.exp n - Real.exp (y * y / 2)| ≤ 1.9e-13 * Real.exp (y * y / 2) := by
    rw [e, show Real.exp (y * y / 2) * Real.exp (n - y * y / 2) - Real.exp (y * y / 2)
      = (Real.exp (n - y * y / 2) - 1) * Real.exp (y * y / 2) by ring, abs_mul, abs_of_pos (Real.exp_pos _)]
    exact mul_le_mul_of_nonneg_right hx' (Real.exp_pos _).le
  rw [abs_of_pos (Real.exp_pos _)] at hE
  have hE' : |E - Real.exp n| ≤ 9e-16 * Real.exp n + tiny :=
    hE.trans (add_le_add (mul_le_mul_of_nonneg_right hd (Real.exp_pos _).le) le_rfl)
  generalize Real.exp n = B at *
  generalize Real.exp (y * y / 2) = A at *
  obtain ⟨a1, a2⟩ := abs_le.1 h2
  obtain ⟨b1, b2⟩ := abs_le.1 hE'
  exact abs_le.2 ⟨by linarith, by linarith⟩

/-- The computed correction `u`: `e` is the difference of the probabilities and `v` the computed one. -/
theorem weight (D : DoubleWithin M d) {A E v e X K ρ : ℝ} (hA : 1 ≤ A) (hE : |E - A| ≤ 4e-13 * A) (hK : 1 ≤ K) (hX : tiny ≤ 2.3e-16 * X)
    (hρ : 0 ≤ ρ) (hρ1 : ρ ≤ 1e-3) (hv : |v - e| ≤ ρ * X) (he : |e| ≤ 1e-4 * X) (hW : K * (Real.sqrt (2 * Real.pi) * A * X) ≤ 1.1) :
    ∃ w : ℝ, M.mul (M.mul (fin v) (fin sqrt2piDouble)) (fin E) = fin w ∧ K * |w - e * Real.sqrt (2 * Real.pi) * A| ≤ 1.2 * ρ + 5e-16 := by
  have ht0 := tiny_pos
  have hX0 : 0 < X := by linarith
  have hs := s_close
  obtain ⟨s1, s2⟩ := sqrt2pi_bounds
  generalize Real.sqrt (2 * Real.pi) = S at *
  generalize sqrt2piDouble = s at *
  obtain ⟨t1, t2⟩ := abs_le.1 hs
  have hρX : 0 ≤ ρ * X := mul_nonneg hρ hX0.le
  have hρX1 : ρ * X ≤ 1e-3 * X := mul_le_mul_of_nonneg_right hρ1 hX0.le
  have hv1 : |v| ≤ 1.1e-3 * X := by
    have := abs_add_le (v - e) e
    rw [sub_add_cancel] at this; linarith
  have hWX : S * A * X ≤ 1.1 := by
    have : 0 ≤ S * A * X := by have : 0 < S := by linarith
                               positivity
    nlinarith
  have hXS : X ≤ 1 := by
    have h1 : 2 * X ≤ S * A * X := mul_le_mul_of_nonneg_right (by nlinarith) hX0.le
    linarith
  have hvs : |v * s| ≤ 1.1e-3 * X * 2.6 := by
    rw [abs_mul, abs_of_nonneg (show 0 ≤ s by linarith)]
    exact mul_le_mul hv1 (by linarith) (by linarith) (by positivity)
  obtain ⟨a, ea, ha⟩ := mul_err D (a := v) (b := s) ((hvs.trans (by linarith : _ ≤ (1 : ℝ))).trans (by norm_num))
  have ha1 : |a - e * S| ≤ S * (X * (1.001 * ρ + 1e-16)) := by
    have u1 := abs_add_le (a - v * s) (v * s - e * S)
    have u2 := abs_add_le ((v - e) * s) (e * (s - S))
    rw [sub_add_sub_cancel] at u1
    rw [show (v - e) * s + e * (s - S) = v * s - e * S by ring, abs_mul, abs_mul, abs_of_nonneg (show 0 ≤ s by linarith)] at u2
    have u3 : |v - e| * s ≤ ρ * X * (S * 1.0005) := mul_le_mul hv (by linarith) (by linarith) hρX
    have u4 : |e| * |s - S| ≤ 1e-4 * X * 5e-16 := mul_le_mul he hs (abs_nonneg _) (by positivity)
    have u5 : 0 ≤ S * (ρ * X) := mul_nonneg (by linarith) hρX
    have u6 : 2.5 * X ≤ S * X := mul_le_mul_of_nonneg_right (by linarith) hX0.le
    have u7 : S * (X * (1.001 * ρ + 1e-16)) = 1.001 * (S * (ρ * X)) + 1e-16 * (S * X) := by ring
    have u8 : ρ * X * (S * 1.0005) = 1.0005 * (S * (ρ * X)) := by ring
    rw [u7]; linarith
  obtain ⟨e1, e2⟩ := abs_le.1 hE
  have hE0 : 0 ≤ E := by linarith
  have hb : |a * E - e * S * A| ≤ S * A * X * (1.002 * ρ + 1.41e-16) := by
    have u1 := abs_add_le ((a - e * S) * E) (e * S * (E - A))
    rw [show (a - e * S) * E + e * S * (E - A) = a * E - e * S * A by ring, abs_mul, abs_mul, abs_mul e, abs_of_nonneg hE0,
      abs_of_nonneg (show 0 ≤ S by linarith)] at u1
    have hq : 0 ≤ S * (X * (1.001 * ρ + 1e-16)) := (abs_nonneg _).trans ha1
    have u2 : |a - e * S| * E ≤ S * (X * (1.001 * ρ + 1e-16)) * (A * 1.0001) := mul_le_mul ha1 (by linarith) hE0 hq
    have u3 : |e| * S * |E - A| ≤ 1e-4 * X * S * (4e-13 * A) :=
      mul_le_mul (mul_le_mul_of_nonneg_right he (by linarith)) hE (abs_nonneg _) (by have : 0 < S := by linarith
                                                                                     positivity)
    have hSA : 0 ≤ S * A * X := by have : 0 < S := by linarith
                                   positivity
    have hSAρ : 0 ≤ S * A * X * ρ := mul_nonneg hSA hρ
    have u4 : S * (X * (1.001 * ρ + 1e-16)) * (A * 1.0001) = 1.0011001 * (S * A * X * ρ) + 1.0001e-16 * (S * A * X) := by ring
    have u5 : 1e-4 * X * S * (4e-13 * A) = 4e-17 * (S * A * X) := by ring
    have u6 : S * A * X * (1.002 * ρ + 1.41e-16) = 1.002 * (S * A * X * ρ) + 1.41e-16 * (S * A * X) := by ring
    rw [u6]; linarith
  have hSA : 0 ≤ S * A * X := by have : 0 < S := by linarith
                                 positivity
  have hSAρ : 0 ≤ S * A * X * ρ := mul_nonneg hSA hρ
  have hSAρ1 : S * A * X * ρ ≤ S * A * X * 1e-3 := mul_le_mul_of_nonneg_left hρ1 hSA
  have heSA : |e * S * A| ≤ 1e-4 * (S * A * X) := by
    rw [abs_mul, abs_mul, abs_of_nonneg (show 0 ≤ S by linarith), abs_of_nonneg (show 0 ≤ A by linarith)]
    calc |e| * S * A ≤ 1e-4 * X * S * A := by
          refine mul_le_mul_of_nonneg_right (mul_le_mul_of_nonneg_right he (by linarith)) (by linarith)
      _ = 1e-4 * (S * A * X) := by ring
  have haE : |a * E| ≤ 2e-3 * (S * A * X) := by
    have := abs_add_le (a * E - e * S * A) (e * S * A)
    rw [sub_add_cancel] at this
    linarith
  obtain ⟨w, ew, hw⟩ := mul_err D (a := a) (b := E) ((haE.trans (by linarith : _ ≤ (1 : ℝ))).trans (by norm_num))
  refine ⟨w, by rw [ea, ew], ?_⟩
  have hXA : X ≤ S * A * X := by
    have h1 : 1 * X ≤ S * A * X := mul_le_mul_of_nonneg_right (by nlinarith) hX0.le
    linarith
  have fin1 : |w - e * S * A| ≤ S * A * X * (1.003 * ρ + 4e-16) := by
    have := abs_add_le (w - a * E) (a * E - e * S * A)
    rw [sub_add_sub_cancel] at this
    have u6 : S * A * X * (1.003 * ρ + 4e-16) = 1.003 * (S * A * X * ρ) + 4e-16 * (S * A * X) := by ring
    have u7 : S * A * X * (1.002 * ρ + 1.41e-16) = 1.002 * (S * A * X * ρ) + 1.41e-16 * (S * A * X) := by ring
    rw [u7] at hb
    rw [u6]; linarith
  calc K * |w - e * S * A| ≤ K * (S * A * X * (1.003 * ρ + 4e-16)) := mul_le_mul_of_nonneg_left fin1 (by linarith)
    _ = K * (S * A * X) * (1.003 * ρ + 4e-16) := by ring
    _ ≤ 1.1 * (1.003 * ρ + 4e-16) := mul_le_mul_of_nonneg_right hW (by positivity)
    _ ≤ 1.2 * ρ + 5e-16 := by linarith

/-- The quotient of the step, with a perturbed correction and denominator. -/
theorem step_quot {y w w' c : ℝ} (hyw : |y * w| ≤ 1.2e-5) (hc0 : 0.999 ≤ c) (hcd : |c - (1 + y * w' * 0.5)| ≤ 1.3e-16) :
    |w' / c - w / (1 + y * w * 0.5)| ≤ 1.005 * |w' - w| + 1.4e-16 * |w| := by
  obtain ⟨yw1, yw2⟩ := abs_le.1 hyw
  have hcp : 0 < c := by linarith
  have hD0 : 0.999 ≤ 1 + y * w * 0.5 := by linarith
  have hDp : 0 < 1 + y * w * 0.5 := by linarith
  rw [div_sub_div _ _ hcp.ne' hDp.ne', abs_div, abs_of_pos (mul_pos hcp hDp), div_le_iff₀ (mul_pos hcp hDp)]
  have e : w' * (1 + y * w * 0.5) - c * w = (w' - w) * (1 + y * w * 0.5) - w * (y * (w' - w) * 0.5) - w * (c - (1 + y * w' * 0.5)) := by ring
  have n1 : |(w' - w) * (1 + y * w * 0.5)| ≤ |w' - w| * 1.0001 := by
    rw [abs_mul, abs_of_pos hDp]; exact mul_le_mul_of_nonneg_left (by linarith) (abs_nonneg _)
  have n2 : |w * (y * (w' - w) * 0.5)| ≤ |w' - w| * 1e-5 := by
    rw [show w * (y * (w' - w) * 0.5) = (w' - w) * (y * w * 0.5) by ring, abs_mul]
    refine mul_le_mul_of_nonneg_left (abs_le.2 ⟨by linarith, by linarith⟩) (abs_nonneg _)
  have n3 : |w * (c - (1 + y * w' * 0.5))| ≤ |w| * 1.3e-16 := by
    rw [abs_mul]; exact mul_le_mul_of_nonneg_left hcd (abs_nonneg _)
  have n4 : |w' * (1 + y * w * 0.5) - c * w| ≤ |w' - w| * 1.0002 + |w| * 1.3e-16 := by
    rw [e]
    have t1 := abs_sub ((w' - w) * (1 + y * w * 0.5) - w * (y * (w' - w) * 0.5)) (w * (c - (1 + y * w' * 0.5)))
    have t2 := abs_sub ((w' - w) * (1 + y * w * 0.5)) (w * (y * (w' - w) * 0.5))
    linarith [abs_nonneg (w' - w)]
  have n5 : 0.998 ≤ c * (1 + y * w * 0.5) := by nlinarith
  refine n4.trans ?_
  have hA := abs_nonneg (w' - w)
  have hB := abs_nonneg w
  calc |w' - w| * 1.0002 + |w| * 1.3e-16 ≤ (1.005 * |w' - w| + 1.4e-16 * |w|) * 0.998 := by linarith
    _ ≤ _ := mul_le_mul_of_nonneg_left n5 (by positivity)

set_option maxHeartbeats 600000 in
/-- The rest of the step. -/
theorem finish (D : DoubleWithin M d) {y z K w w' ρ : ℝ} (hK : 1 ≤ K) (hK' : K ≤ 40) (hz : |z| ≤ K) (hyz : K * |y - z| ≤ 8e-6)
    (ew : w = (PhiR y - PhiR z) * Real.sqrt (2 * Real.pi) * Real.exp (y * y / 2)) (hρ : ρ ≤ 1e-3) (hw : K * |w' - w| ≤ ρ) :
    ∃ y' : ℝ, M.sub (fin y) (M.div (fin w') (M.add 1 (M.mul (M.mul (fin y) (fin w')) (fin (1 / 2))))) = fin y' ∧
      K * |y' - z| ≤ 1.01 * ρ + 1.3e-15 + 1.3e-16 * K ^ 2 := by
  have ht := tiny_le
  have ht0 := tiny_pos
  have hK0 : 0 < K := by linarith
  have hyz1 : |y - z| ≤ 8e-6 := by nlinarith [abs_nonneg (y - z)]
  have hy : |y| ≤ K * (1 + 1e-5) := by
    have := abs_add_le (y - z) z
    rw [sub_add_cancel] at this; nlinarith
  have hyz' : K * (1 + 1e-5) * |y - z| ≤ 8.1e-6 := by nlinarith
  -- the size of the correction
  have hwK : K * |w| ≤ 1.1e-5 := by
    have h := halley_h (F := PhiR) (K := 1 / Real.sqrt (2 * Real.pi)) (c := 1 / 2) (by positivity) (by norm_num)
      (fun y => by rw [← phiR_eq]; exact hasDerivAt_PhiR y) (z := z) (w := y) (M := K * (1 + 1e-5)) (by nlinarith) hy (by linarith)
    have e : (PhiR y - PhiR z) * (1 / (1 / Real.sqrt (2 * Real.pi))) * Real.exp (1 / 2 * y ^ 2) = w := by
      rw [ew, one_div_one_div]; congr 2; ring
    rw [e] at h
    calc K * |w| ≤ K * (4 / 3 * |y - z|) := mul_le_mul_of_nonneg_left h hK0.le
      _ = 4 / 3 * (K * |y - z|) := by ring
      _ ≤ 1.1e-5 := by linarith
  -- the exact step
  obtain ⟨g, eg, hg⟩ := halleyPhi_bound (z := z) (y := y) (M := K * (1 + 1e-5)) (by nlinarith) hy (by linarith)
  have hyw : |y * w| ≤ 1.2e-5 := by
    rw [abs_mul]
    calc |y| * |w| ≤ K * (1 + 1e-5) * |w| := mul_le_mul_of_nonneg_right hy (abs_nonneg _)
      _ = (1 + 1e-5) * (K * |w|) := by ring
      _ ≤ 1.2e-5 := by linarith
  obtain ⟨yw1, yw2⟩ := abs_le.1 hyw
  have hden : (1 + y * w * 0.5) ≠ 0 := by linarith
  rw [halleyPhi_fin (w := w) (by rw [ew]; congr 2; ring) hden, fin_inj] at eg
  have hgz : K * |g - z| ≤ 1.2e-15 := by
    have h2 : |y - z| ≤ 8e-6 / K := by rw [le_div_iff₀ hK0]; linarith
    have h3 : |y - z| ^ 3 ≤ (8e-6 / K) ^ 3 := pow_le_pow_left₀ (abs_nonneg _) h2 3
    have h4 : |g - z| ≤ (3 / 2 + 3 / 4 * (K * (1 + 1e-5)) ^ 2) * (8e-6 / K) ^ 3 := hg.trans (mul_le_mul_of_nonneg_left h3 (by positivity))
    calc K * |g - z| ≤ K * ((3 / 2 + 3 / 4 * (K * (1 + 1e-5)) ^ 2) * (8e-6 / K) ^ 3) := mul_le_mul_of_nonneg_left h4 hK0.le
      _ = (3 / 2 / K ^ 2 + 3 / 4 * (1 + 1e-5) ^ 2) * 8e-6 ^ 3 := by field_simp
      _ ≤ (3 / 2 + 3 / 4 * (1 + 1e-5) ^ 2) * 8e-6 ^ 3 := by
        refine mul_le_mul_of_nonneg_right (add_le_add ?_ le_rfl) (by norm_num)
        exact div_le_self (by norm_num) (one_le_pow₀ hK)
      _ ≤ 1.2e-15 := by norm_num
  -- the computed step
  have hρ0 : 0 ≤ ρ := le_trans (by positivity) hw
  have hw' : K * |w'| ≤ 1.02e-3 := by
    have := abs_add_le (w' - w) w
    rw [sub_add_cancel] at this
    nlinarith
  have hw1 : |w'| ≤ 1.02e-3 := by nlinarith [abs_nonneg w']
  have hw2 : |w| ≤ 1.1e-5 := by nlinarith [abs_nonneg w]
  have hyw' : |y * w'| ≤ 1.03e-3 := by
    rw [abs_mul]
    calc |y| * |w'| ≤ K * (1 + 1e-5) * |w'| := mul_le_mul_of_nonneg_right hy (abs_nonneg _)
      _ = (1 + 1e-5) * (K * |w'|) := by ring
      _ ≤ 1.03e-3 := by linarith
  obtain ⟨v1, v2⟩ := abs_le.1 hyw'
  obtain ⟨a, ea, ha⟩ := mul_err D (a := y) (b := w') (hyw'.trans (by norm_num))
  obtain ⟨a1, a2⟩ := abs_le.1 (ha.trans (show _ ≤ 1e-18 by linarith))
  have hab : |a * (1 / 2)| ≤ 1e-3 := abs_le.2 ⟨by linarith, by linarith⟩
  obtain ⟨b, eb, hb⟩ := mul_err D (a := a) (b := 1 / 2) (hab.trans (by norm_num))
  obtain ⟨b1, b2⟩ := abs_le.1 (hb.trans (show _ ≤ 1e-18 by linarith))
  have hbc : |1 + b| ≤ 1.002 := abs_le.2 ⟨by linarith, by linarith⟩
  obtain ⟨c, ec, hc⟩ := add_err D (a := 1) (b := b) (hbc.trans (by norm_num))
  obtain ⟨c1, c2⟩ := abs_le.1 (hc.trans (show _ ≤ 1.21e-16 by linarith))
  have hc0 : 0.999 ≤ c := by linarith
  have hcp : 0 < c := by linarith
  have hcd : |c - (1 + y * w' * 0.5)| ≤ 1.3e-16 := abs_le.2 ⟨by linarith, by linarith⟩
  have hwc : |w' / c| ≤ 1.01 * |w'| := by
    rw [abs_div, abs_of_pos hcp, div_le_iff₀ hcp]
    nlinarith [abs_nonneg w']
  obtain ⟨h, eh, hh⟩ := div_err D (a := w') hcp.ne' (hwc.trans ((by linarith : _ ≤ (1 : ℝ)).trans (by norm_num)))
  have hh' : |h - w' / c| ≤ 1.3e-16 * |w'| + tiny := hh.trans (by linarith [abs_nonneg w'])
  have hquot := step_quot (w' := w') hyw hc0 hcd
  have hyh : |y - h| ≤ K * 1.002 := by
    have t := abs_sub y h
    have t2 := abs_add_le (h - w' / c) (w' / c)
    rw [sub_add_cancel] at t2
    linarith
  obtain ⟨r, er, hr⟩ := sub_err D (a := y) (b := h) ((hyh.trans (by linarith : _ ≤ (100 : ℝ))).trans (by norm_num))
  refine ⟨r, by rw [ea, eb, one_def, ec, eh, er], ?_⟩
  have final : |r - z| ≤ 1.005 * |w' - w| + 1.4e-16 * |w| + (1.3e-16 * |w'| + tiny) + (1.2e-16 * (K * 1.002) + tiny) + |g - z| := by
    have t1 := abs_add_le (r - (y - h)) (y - h - z)
    rw [sub_add_sub_cancel] at t1
    have t2 := abs_add_le (y - h - g) (g - z)
    rw [sub_add_sub_cancel] at t2
    have t3 : |y - h - g| ≤ |h - w' / c| + |w' / c - w / (1 + y * w * 0.5)| := by
      have := abs_add_le (h - w' / c) (w' / c - w / (1 + y * w * 0.5))
      rw [sub_add_sub_cancel] at this
      rw [← eg, show y - h - (y - w / (1 + y * w * 0.5)) = -(h - w / (1 + y * w * 0.5)) by ring, abs_neg]
      exact this
    linarith
  have hKK : K ≤ K ^ 2 := by nlinarith
  calc K * |r - z| ≤ K * (1.005 * |w' - w| + 1.4e-16 * |w| + (1.3e-16 * |w'| + tiny) + (1.2e-16 * (K * 1.002) + tiny) + |g - z|) :=
        mul_le_mul_of_nonneg_left final hK0.le
    _ = 1.005 * (K * |w' - w|) + 1.4e-16 * (K * |w|) + 1.3e-16 * (K * |w'|) + 2 * (K * tiny) + 1.2024e-16 * K ^ 2 + K * |g - z| := by ring
    _ ≤ 1.01 * ρ + 1.3e-15 + 1.3e-16 * K ^ 2 := by
      have : K * tiny ≤ K ^ 2 * 1e-30 := mul_le_mul hKK ht ht0.le (by positivity)
      linarith

end Trng.Inverse
