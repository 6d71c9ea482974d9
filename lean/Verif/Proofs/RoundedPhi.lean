import Verif.Proofs.RoundedTail

/-! The normal distribution function in the arithmetic of `double`. -/
namespace Trng.Inverse
open XR Machine Spec Rounded Acklam
open Classical

variable {M : Machine} {d : ℝ}

local notation "Φd" => Rounded.Phi M oneOverSqrt2Double quartileDouble

theorem c_range : 0.7071 ≤ oneOverSqrt2Double ∧ oneOverSqrt2Double ≤ 0.7072 := by unfold oneOverSqrt2Double; norm_num
theorem k_range : 0.674 ≤ quartileDouble ∧ quartileDouble ≤ 0.675 := by unfold quartileDouble; norm_num

theorem c_close : |oneOverSqrt2Double * Real.sqrt 2 - 1| ≤ 2e-16 := by
  have h : |(oneOverSqrt2Double * Real.sqrt 2) ^ 2 - 1| ≤ 2e-16 := by
    rw [mul_pow, Real.sq_sqrt (by norm_num)]; unfold oneOverSqrt2Double; norm_num [abs_le]
  have hp : 0 ≤ oneOverSqrt2Double * Real.sqrt 2 := mul_nonneg (by linarith [c_range.1]) (Real.sqrt_nonneg _)
  generalize oneOverSqrt2Double * Real.sqrt 2 = a at *
  rw [show a ^ 2 - 1 = (a - 1) * (a + 1) by ring, abs_mul, abs_of_nonneg (show 0 ≤ a + 1 by linarith)] at h
  nlinarith [abs_nonneg (a - 1)]

theorem erfc_eq (x : ℝ) : 1 - erfR x = 2 * PhiR (-(x * Real.sqrt 2)) := by
  rw [PhiR_neg, PhiR, mul_div_cancel_right₀ _ (by positivity)]; ring
theorem erfc_eq' (x : ℝ) : 1 - erfR (-x) = 2 * PhiR (x * Real.sqrt 2) := by
  rw [erfc_eq]; congr 2; ring
theorem erf_eq (x : ℝ) : 1 / 2 + 1 / 2 * erfR x = PhiR (x * Real.sqrt 2) := by
  rw [PhiR, mul_div_cancel_right₀ _ (by positivity)]

/-- the scaled argument -/
theorem scaled (D : DoubleWithin M d) {y : ℝ} (hy : |y| ≤ 39.8) : ∃ x : ℝ, M.mul (fin y) (fin oneOverSqrt2Double) = fin x ∧
    |x - y * oneOverSqrt2Double| ≤ 1.2e-16 * |y| + tiny ∧ |x * Real.sqrt 2 - y| ≤ 3.3e-16 * |y| + 2 * tiny := by
  obtain ⟨c0, c1⟩ := c_range
  have h := c_close
  set c := oneOverSqrt2Double
  have hyc : |y * c| ≤ 0.7072 * |y| := by
    rw [abs_mul, abs_of_nonneg (show 0 ≤ c by linarith), mul_comm]
    exact mul_le_mul_of_nonneg_right c1 (abs_nonneg y)
  have ha := abs_nonneg y
  obtain ⟨x, ex, hx⟩ := mul_err D (a := y) (b := c) ((hyc.trans (by linarith : (0.7072 : ℝ) * |y| ≤ 100)).trans (by norm_num))
  have hx' : |x - y * c| ≤ 0.85e-16 * |y| + tiny := hx.trans (by linarith)
  refine ⟨x, ex, hx'.trans (by linarith), ?_⟩
  have s2 : Real.sqrt 2 ≤ 1.42 := Real.sqrt_le_iff.2 ⟨by norm_num, by norm_num⟩
  have s0 := Real.sqrt_nonneg 2
  have ht := tiny_pos
  have t := abs_add_le ((x - y * c) * Real.sqrt 2) (y * (c * Real.sqrt 2 - 1))
  rw [show (x - y * c) * Real.sqrt 2 + y * (c * Real.sqrt 2 - 1) = x * Real.sqrt 2 - y by ring, abs_mul, abs_mul, abs_of_nonneg s0] at t
  have t1 : |x - y * c| * Real.sqrt 2 ≤ (0.85e-16 * |y| + tiny) * 1.42 := mul_le_mul hx' s2 s0 (by positivity)
  have t2 : |y| * |c * Real.sqrt 2 - 1| ≤ |y| * 2e-16 := mul_le_mul_of_nonneg_left h ha
  linarith

theorem shift_tail {y y' : ℝ} (h0 : 1.9 ≤ |y|) (h1 : |y| ≤ 39.8) (h : |y' - y| ≤ 3.3e-16 * |y| + 2 * tiny) : |PhiR y' - PhiR y| ≤ 6.9e-13 * PhiR (-|y|) := by
  have ht := tiny_le
  have ht0 := tiny_pos
  have hP := PhiR_pos (-|y|)
  have e : |y| * |y' - y| ≤ 5.3e-13 := by
    calc |y| * |y' - y| ≤ 39.8 * (3.3e-16 * 39.8 + 2 * tiny) := mul_le_mul h1 (h.trans (by linarith)) (abs_nonneg _) (by norm_num)
      _ ≤ 5.3e-13 := by linarith
  have := value_tail (y := y') (z := y) rfl h0 e (by norm_num)
  refine this.trans (mul_le_mul_of_nonneg_right (by norm_num) hP.le)

theorem quart (D : DoubleWithin M d) : ∃ a b : ℝ, M.mul (fin (-quartileDouble)) (fin oneOverSqrt2Double) = fin a ∧
    M.mul (fin quartileDouble) (fin oneOverSqrt2Double) = fin b ∧ -0.5 ≤ a ∧ b ≤ 0.5 ∧ a ≤ b := by
  obtain ⟨c0, c1⟩ := c_range
  obtain ⟨k0, k1⟩ := k_range
  have ht := tiny_le
  set c := oneOverSqrt2Double
  set k := quartileDouble
  have p1 : k * c ≤ 0.478 := by nlinarith
  have p0 : 0.47 ≤ k * c := by nlinarith
  have e1 : |-k * c| ≤ 1 := abs_le.2 ⟨by linarith, by linarith⟩
  have e2 : |k * c| ≤ 1 := abs_le.2 ⟨by linarith, by linarith⟩
  obtain ⟨a, ea, ha⟩ := mul_err D (a := -k) (b := c) (e1.trans (by norm_num))
  obtain ⟨b, eb, hb⟩ := mul_err D (a := k) (b := c) (e2.trans (by norm_num))
  have a1 := abs_le.1 (show |a - -k * c| ≤ 1e-3 by linarith)
  have b1 := abs_le.1 (show |b - k * c| ≤ 1e-3 by linarith)
  exact ⟨a, b, ea, eb, by linarith [a1.1], by linarith [b1.2], by linarith [a1.2, b1.1]⟩

/-- half of the complementary error function -/
theorem half_erfc (D : DoubleWithin M d) (hd : d ≤ 9e-16) (x : ℝ) : ∃ s : ℝ, M.mul (fin (1 / 2)) (M.erfc (fin x)) = fin s ∧
    |s - PhiR (-(x * Real.sqrt 2))| ≤ 1.1e-15 * PhiR (-(x * Real.sqrt 2)) + 2 * tiny := by
  obtain ⟨E, eE, hE⟩ := D.erfc x
  have ht := tiny_le
  have ht0 := tiny_pos
  rw [erfc_eq] at hE
  have hP := PhiR_pos (-(x * Real.sqrt 2))
  have hP1 := PhiR_lt_one (-(x * Real.sqrt 2))
  generalize PhiR (-(x * Real.sqrt 2)) = P at *
  rw [abs_of_pos (show 0 < 2 * P by linarith)] at hE
  have hE' : |E - 2 * P| ≤ 9e-16 * (2 * P) + tiny := by
    refine hE.trans (add_le_add ?_ le_rfl)
    exact mul_le_mul_of_nonneg_right hd (by linarith)
  obtain ⟨e1, e2⟩ := abs_le.1 hE'
  have hh : |1 / 2 * E| ≤ 1.01 * P + tiny := abs_le.2 ⟨by linarith, by linarith⟩
  obtain ⟨s, es, hs⟩ := mul_err D (a := 1 / 2) (b := E) ((hh.trans (by linarith : 1.01 * P + tiny ≤ 2)).trans (by norm_num))
  refine ⟨s, by rw [eE, es], ?_⟩
  have := hs.trans (show _ ≤ 1.3e-16 * P + 1.1 * tiny by linarith)
  obtain ⟨s1, s2⟩ := abs_le.1 this
  exact abs_le.2 ⟨by linarith, by linarith⟩

theorem Phi_lower (D : DoubleWithin M d) (hd : d ≤ 9e-16) {y : ℝ} (h0 : y ≤ -1.9) (h1 : -39.8 ≤ y) :
    ∃ p : ℝ, Φd (fin y) = fin p ∧ |p - PhiR y| ≤ 7e-13 * PhiR y + 2 * tiny := by
  have hy : |y| = -y := abs_of_nonpos (by linarith)
  have ht := tiny_le
  obtain ⟨x, ex, x1, x2⟩ := scaled D (y := y) (by rw [hy]; linarith)
  obtain ⟨a, b, ea, eb, a0, b0, ab⟩ := quart D
  obtain ⟨s, es, hs⟩ := half_erfc D hd (-x)
  obtain ⟨c0, c1⟩ := c_range
  have hlt : x < a := by
    rw [hy] at x1
    have := (abs_le.1 x1).2
    have : y * oneOverSqrt2Double ≤ -1.9 * oneOverSqrt2Double := mul_le_mul_of_nonneg_right h0 (by linarith)
    linarith
  have sh := shift_tail (by rw [hy]; linarith) (by rw [hy]; linarith) x2
  rw [hy, neg_neg] at sh
  refine ⟨s, ?_, ?_⟩
  · unfold Rounded.Phi
    simp only [ex, ea]
    rw [if_pos ((fin_lt _ _).2 hlt), neg_fin, es]
  · rw [neg_mul, neg_neg] at hs
    generalize PhiR (x * Real.sqrt 2) = P' at *
    generalize PhiR y = P at *
    obtain ⟨q1, q2⟩ := abs_le.1 sh
    obtain ⟨r1, r2⟩ := abs_le.1 hs
    exact abs_le.2 ⟨by linarith, by linarith⟩

theorem Phi_upper (D : DoubleWithin M d) (hd : d ≤ 9e-16) {y : ℝ} (h0 : 1.9 ≤ y) (h1 : y ≤ 39.8) :
    ∃ s : ℝ, Φd (fin y) = M.rnd (1 - s) ∧ |s - PhiR (-y)| ≤ 7e-13 * PhiR (-y) + 2 * tiny := by
  have hy : |y| = y := abs_of_nonneg (by linarith)
  have ht := tiny_le
  obtain ⟨x, ex, x1, x2⟩ := scaled D (y := y) (by rw [hy]; linarith)
  obtain ⟨a, b, ea, eb, a0, b0, ab⟩ := quart D
  obtain ⟨s, es, hs⟩ := half_erfc D hd x
  obtain ⟨c0, c1⟩ := c_range
  have hlt : b < x := by
    rw [hy] at x1
    have := (abs_le.1 x1).1
    have : 1.9 * oneOverSqrt2Double ≤ y * oneOverSqrt2Double := mul_le_mul_of_nonneg_right h0 (by linarith)
    linarith
  have sh := shift_tail (by rw [hy]; linarith) (by rw [hy]; linarith) x2
  rw [hy] at sh
  have sh' : |PhiR (-(x * Real.sqrt 2)) - PhiR (-y)| ≤ 6.9e-13 * PhiR (-y) := by
    rw [PhiR_neg (x * _), PhiR_neg y, show 1 - PhiR (x * Real.sqrt 2) - (1 - PhiR y) = -(PhiR (x * Real.sqrt 2) - PhiR y) by ring, abs_neg,
      ← PhiR_neg]
    exact sh
  refine ⟨s, ?_, ?_⟩
  · unfold Rounded.Phi
    simp only [ex, ea, eb]
    rw [if_neg (fun h => absurd ((fin_lt _ _).1 h) (by linarith)), if_pos ((fin_lt _ _).2 hlt), es, one_def, sub_fin]
  · generalize PhiR (-(x * Real.sqrt 2)) = P' at *
    have hP := PhiR_pos (-y)
    generalize PhiR (-y) = P at *
    obtain ⟨q1, q2⟩ := abs_le.1 sh'
    obtain ⟨r1, r2⟩ := abs_le.1 hs
    exact abs_le.2 ⟨by linarith, by linarith⟩

theorem Phi_centre (D : DoubleWithin M d) (hd : d ≤ 9e-16) {y : ℝ} (h : |y| ≤ 2.1) : ∃ p : ℝ, Φd (fin y) = fin p ∧ |p - PhiR y| ≤ 2e-15 := by
  have ht := tiny_le
  have ht0 := tiny_pos
  obtain ⟨x, ex, -, x2⟩ := scaled D (y := y) (by linarith)
  obtain ⟨a, b, ea, eb, a0, b0, ab⟩ := quart D
  have sh : |PhiR (x * Real.sqrt 2) - PhiR y| ≤ 7e-16 := (PhiR_lip _ _).trans (x2.trans (by linarith))
  obtain ⟨q1, q2⟩ := abs_le.1 sh
  have P0 := PhiR_pos (x * Real.sqrt 2)
  have P1 := PhiR_lt_one (x * Real.sqrt 2)
  unfold Rounded.Phi
  simp only [ex, ea, eb]
  split_ifs with c1 c2
  · obtain ⟨s, es, hs⟩ := half_erfc D hd (-x)
    rw [neg_mul, neg_neg] at hs
    obtain ⟨r1, r2⟩ := abs_le.1 hs
    exact ⟨s, by rw [neg_fin, es], abs_le.2 ⟨by linarith, by linarith⟩⟩
  · obtain ⟨s, es, hs⟩ := half_erfc D hd x
    rw [PhiR_neg] at hs
    obtain ⟨r1, r2⟩ := abs_le.1 hs
    have hb : |1 - s| ≤ 1.001 := abs_le.2 ⟨by linarith, by linarith⟩
    obtain ⟨p, ep, hp⟩ := sub_err D (a := 1) (b := s) (hb.trans (by norm_num))
    obtain ⟨p1, p2⟩ := abs_le.1 (hp.trans (show _ ≤ 1.3e-16 by linarith))
    exact ⟨p, by rw [es, one_def, ep], abs_le.2 ⟨by linarith, by linarith⟩⟩
  · obtain ⟨E, eE, hE⟩ := D.erf x
    have heq := erf_eq x
    have hE1 : |erfR x| ≤ 1 := abs_le.2 ⟨by linarith, by linarith⟩
    have hE' : |E - erfR x| ≤ 9e-16 + tiny := by
      refine hE.trans (add_le_add ?_ le_rfl)
      calc d * |erfR x| ≤ 9e-16 * 1 := mul_le_mul hd hE1 (abs_nonneg _) (by norm_num)
        _ = 9e-16 := by norm_num
    obtain ⟨f1, f2⟩ := abs_le.1 hE1
    obtain ⟨g1, g2⟩ := abs_le.1 hE'
    have hh : |1 / 2 * E| ≤ 0.51 := abs_le.2 ⟨by linarith, by linarith⟩
    obtain ⟨s, es, hs⟩ := mul_err D (a := 1 / 2) (b := E) (hh.trans (by norm_num))
    obtain ⟨s1, s2⟩ := abs_le.1 (hs.trans (show _ ≤ 0.7e-16 by linarith))
    have hb : |1 / 2 + s| ≤ 1.001 := by
      obtain ⟨h1, h2⟩ := abs_le.1 hh
      exact abs_le.2 ⟨by linarith, by linarith⟩
    obtain ⟨p, ep, hp⟩ := add_err D (a := 1 / 2) (b := s) (hb.trans (by norm_num))
    obtain ⟨p1, p2⟩ := abs_le.1 (hp.trans (show _ ≤ 1.3e-16 by linarith))
    exact ⟨p, by rw [eE, es, ep], abs_le.2 ⟨by linarith, by linarith⟩⟩

end Trng.Inverse
