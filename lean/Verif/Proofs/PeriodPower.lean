import Verif.Proofs.PeriodSample
import Verif.Model.PeriodLaw

/-! Samples of the distributions that use powers and trigonometric functions, and of the uniform, tent and log-normal distributions. -/
namespace Trng.PeriodLaw
open XR Machine Spec Rounded Inverse

variable {M : Machine} {d : ℝ}

/-! ### Powers and products, by their logarithms -/

theorem exp_big {x : ℝ} (h : x ≤ 690) : Real.exp x ≤ 2 ^ (1000 : ℕ) := by
  rw [← Real.le_log_iff_exp_le (by positivity), Real.log_pow]
  have := Real.log_two_gt_d9
  push_cast
  linarith

theorem tiny_exp {x : ℝ} (h : -690 ≤ x) : tiny ≤ 1e-20 * Real.exp x := by
  have h1 := exp_big (x := -x) (by linarith)
  have h2 : tiny * Real.exp (-x) ≤ 1e-20 := (mul_le_mul_of_nonneg_left h1 tiny_pos.le).trans tiny_mul
  rw [Real.exp_neg, ← div_eq_mul_inv, div_le_iff₀ (Real.exp_pos x)] at h2
  exact h2

theorem pow_log (P : FunctionsWithin M d) (hd : d ≤ 9e-16) {x y : ℝ} (hx : 0 < x) (hy : |y * Real.log x| ≤ 690) :
    ∃ p, M.pow (fin x) (fin y) = fin p ∧ 0 < p ∧ |Real.log p - y * Real.log x| ≤ 2e-15 := by
  obtain ⟨y1, y2⟩ := abs_le.1 hy
  have e : x ^ y = Real.exp (y * Real.log x) := by rw [Real.rpow_def_of_pos hx, mul_comm]
  obtain ⟨p, ep, hp⟩ := P.pow x y hx (by rw [e]; exact exp_big y2)
  rw [e] at hp
  have h0 := Real.exp_pos (y * Real.log x)
  rw [abs_of_pos h0] at hp
  change _ ≤ _ + tiny at hp
  have ht := tiny_exp y1
  have h1 : d * Real.exp (y * Real.log x) ≤ 9e-16 * Real.exp (y * Real.log x) := mul_le_mul_of_nonneg_right hd h0.le
  have h2 : |p - Real.exp (y * Real.log x)| ≤ 1e-15 * Real.exp (y * Real.log x) := by linarith
  obtain ⟨hp0, hl⟩ := log_rel h0 h2 (by norm_num)
  rw [Real.log_exp] at hl
  exact ⟨p, ep, hp0, hl.trans (by norm_num)⟩

theorem mul_log (D : DoubleWithin M d) {a b : ℝ} (ha : 0 < a) (hb : 0 < b) (h : |Real.log a + Real.log b| ≤ 690) :
    ∃ r, M.rnd (a * b) = fin r ∧ 0 < r ∧ |Real.log r - (Real.log a + Real.log b)| ≤ 2.6e-16 := by
  have hx : 0 < a * b := mul_pos ha hb
  have e : a * b = Real.exp (Real.log a + Real.log b) := by rw [Real.exp_add, Real.exp_log ha, Real.exp_log hb]
  obtain ⟨h1, h2⟩ := abs_le.1 h
  obtain ⟨r, er, hr⟩ := rnd_err D (x := a * b) (by
    rw [abs_of_pos hx, e]
    refine (exp_big h2).trans ?_
    rw [← zpow_natCast]
    exact zpow_le_zpow_right₀ one_le_two (by norm_num))
  have ht := tiny_exp h1
  rw [abs_of_pos hx] at hr
  rw [← e] at ht
  obtain ⟨hr0, hl⟩ := log_rel hx (show |r - a * b| ≤ 1.3e-16 * (a * b) by linarith) (by norm_num)
  rw [Real.log_mul ha.ne' hb.ne'] at hl
  exact ⟨r, er, hr0, hl.trans (by norm_num)⟩

theorem log_theta {theta : ℝ} (h0 : 1e-100 ≤ theta) (h1 : theta ≤ 1e100) : |Real.log theta| ≤ 278 := by
  have ht : 0 < theta := lt_of_lt_of_le (by norm_num) h0
  have a := Real.log_le_log (by norm_num) (show ((2 : ℝ) ^ (-400 : ℤ)) ≤ theta from by
    refine le_trans ?_ h0
    have : (2 : ℝ) ^ (-400 : ℤ) = ((16 : ℝ) ^ (100 : ℕ))⁻¹ := by
      rw [show (16 : ℝ) = 2 ^ (4 : ℤ) by norm_num, ← zpow_natCast, ← zpow_mul, ← zpow_neg]; norm_num
    rw [this]
    norm_num)
  have b := Real.log_le_log ht (show theta ≤ (2 : ℝ) ^ (400 : ℤ) from by
    refine h1.trans ?_
    have : (2 : ℝ) ^ (400 : ℤ) = (16 : ℝ) ^ (100 : ℕ) := by
      rw [show (16 : ℝ) = 2 ^ (4 : ℤ) by norm_num, ← zpow_natCast, ← zpow_mul]; norm_num
    rw [this]
    norm_num)
  rw [Real.log_zpow] at a b
  have := Real.log_two_lt_d9
  push_cast at a b
  exact abs_le.2 ⟨by linarith, by linarith⟩

/-- The reciprocal of the exponent. -/
theorem inv_exponent (D : DoubleWithin M d) {g s : ℝ} (hs : |s| = 1) (g0 : 1 / 10 ≤ g) (g1 : g ≤ 1e15) :
    ∃ k, M.rnd (s / g) = fin k ∧ |g * k - s| ≤ 1.3e-16 ∧ |k| ≤ 10.0001 := by
  have hg : 0 < g := by linarith
  have h1 : |s / g| = 1 / g := by rw [abs_div, hs, abs_of_pos hg]
  have h10 : 1 / g ≤ 10 := by rw [div_le_iff₀ hg]; linarith
  obtain ⟨k, ek, hk⟩ := rnd_err D (x := s / g) (big_le (y := 10) (by rw [h1]; exact h10) (by norm_num))
  rw [h1] at hk
  have ht : tiny ≤ 1e-17 * (1 / g) := by
    have := tiny_scale (theta := 1e-15) (by norm_num)
    have h2 : 1e-15 ≤ 1 / g := by rw [le_div_iff₀ hg]; linarith
    linarith
  refine ⟨k, ek, ?_, ?_⟩
  · have e : g * k - s = g * (k - s / g) := by field_simp
    rw [e, abs_mul, abs_of_pos hg]
    calc g * |k - s / g| ≤ g * (1.3e-16 * (1 / g)) := mul_le_mul_of_nonneg_left (by linarith) hg.le
      _ = 1.3e-16 := by field_simp
  · have := abs_add_le (k - s / g) (s / g)
    rw [sub_add_cancel, h1] at this
    linarith

/-! ### Power-law, Pareto and Weibull distributions -/

/-- `1 - exp(-x)` for positive `x`. -/
theorem tail_close {x u ε : ℝ} (hu : 0 < u) (h1 : u ≤ 1) (h : |x + Real.log u| ≤ ε) : |(1 - Real.exp (-max x 0)) - (1 - u)| ≤ ε := by
  have hl := Real.log_nonpos hu.le h1
  have e2 : 1 - u = 1 - Real.exp (-max (-Real.log u) 0) := by rw [max_eq_left (by linarith), neg_neg, Real.exp_log hu]
  rw [e2, sub_sub_sub_cancel_left]
  refine (exp_lip (by simp) (by simp)).trans ?_
  rw [neg_sub_neg]
  refine (abs_max_sub_max_le_abs _ _ _).trans ?_
  refine le_trans (le_of_eq ?_) h
  congr 1; ring

theorem exponent_close {k g u t : ℝ} (hg : 0 < g) (hk : |g * k - -1| ≤ 1.3e-16) (hu : |Real.log u| ≤ 40) {ρ : ℝ} (ht : |t - k * Real.log u| ≤ ρ) :
    |g * t + Real.log u| ≤ 1e-14 + ρ * g := by
  have e : g * t + Real.log u = g * (t - k * Real.log u) + (g * k - -1) * Real.log u := by ring
  rw [e]
  refine (abs_add_le _ _).trans ?_
  rw [abs_mul, abs_mul, abs_of_pos hg]
  have a : g * |t - k * Real.log u| ≤ g * ρ := mul_le_mul_of_nonneg_left ht hg.le
  have b : |g * k - -1| * |Real.log u| ≤ 1.3e-16 * 40 := mul_le_mul hk hu (abs_nonneg _) (by norm_num)
  linarith

theorem powerlaw_value (D : DoubleWithin M d) (P : FunctionsWithin M d) (hd : d ≤ 9e-16) {gamma theta u : ℝ} (g0 : 1 / 10 ≤ gamma) (g1 : gamma ≤ 1e15)
    (t0 : 1e-100 ≤ theta) (t1 : theta ≤ 1e100) (h0 : 2 ^ (-53 : ℤ) ≤ u) (h1 : u ≤ 1) :
    ∃ r, (powerlaw M (fin gamma) (fin theta)).draw (fin u) = fin r ∧ |powerlawLaw gamma theta r - (1 - u)| ≤ 1e-14 + 2.3e-15 * gamma := by
  have hg : 0 < gamma := by linarith
  have ht : 0 < theta := lt_of_lt_of_le (by norm_num) t0
  have hu : 0 < u := lt_of_lt_of_le (by positivity) h0
  have hlb := log_bound (w := u) (le_trans (by norm_num) h0) (h1.trans (by norm_num))
  obtain ⟨k, ek, hk, hkb⟩ := inv_exponent D (s := -1) (by norm_num) g0 g1
  have hkl : |k * Real.log u| ≤ 400.1 := by
    rw [abs_mul]
    exact (mul_le_mul hkb hlb (abs_nonneg _) (by norm_num)).trans (by norm_num)
  obtain ⟨p, ep, hp0, hp⟩ := pow_log P hd hu (hkl.trans (by norm_num))
  have hlt := log_theta t0 t1
  obtain ⟨r, er, hr0, hr⟩ := mul_log D ht hp0 (by
    obtain ⟨a1, a2⟩ := abs_le.1 hp
    obtain ⟨b1, b2⟩ := abs_le.1 hkl
    obtain ⟨c1, c2⟩ := abs_le.1 hlt
    exact abs_le.2 ⟨by linarith, by linarith⟩)
  refine ⟨r, ?_, ?_⟩
  · show M.mul (fin theta) (M.pow (fin u) (M.div (fin (-1)) (fin gamma))) = _
    rw [Machine.div_fin _ hg.ne', ek, ep, Machine.mul_fin, er]
  · have e : powerlawLaw gamma theta r = 1 - Real.exp (-max (gamma * (Real.log r - Real.log theta)) 0) := by
      unfold powerlawLaw
      split_ifs with h
      · have := Real.log_le_log hr0 h
        rw [max_eq_right (mul_nonpos_of_nonneg_of_nonpos hg.le (by linarith))]; simp
      · have := Real.log_le_log ht (not_le.1 h).le
        rw [max_eq_left (mul_nonneg hg.le (by linarith)), Real.rpow_def_of_pos (div_pos hr0 ht), Real.log_div hr0.ne' ht.ne']
        congr 2; ring
    rw [e]
    refine tail_close hu h1 (exponent_close hg hk hlb ?_)
    obtain ⟨a1, a2⟩ := abs_le.1 hp
    obtain ⟨b1, b2⟩ := abs_le.1 hr
    exact abs_le.2 ⟨by linarith, by linarith⟩

theorem pareto_value (D : DoubleWithin M d) (P : FunctionsWithin M d) (hd : d ≤ 9e-16) {gamma theta u : ℝ} (g0 : 1 / 10 ≤ gamma) (g1 : gamma ≤ 1e15)
    (t0 : 1e-100 ≤ theta) (t1 : theta ≤ 1e100) (h0 : 2 ^ (-52 : ℤ) ≤ u) (h1 : u < 1) :
    ∃ r, (pareto M (fin gamma) (fin theta)).draw (fin u) = fin r ∧ |paretoLaw gamma theta r - (1 - u)| ≤ 1e-14 + 2.9e-15 * gamma := by
  have hg : 0 < gamma := by linarith
  have ht : 0 < theta := lt_of_lt_of_le (by norm_num) t0
  have hu : 0 < u := lt_of_lt_of_le (by positivity) h0
  have hlb := log_bound (w := u) (le_trans (by norm_num) h0) (h1.le.trans (by norm_num))
  obtain ⟨k, ek, hk, hkb⟩ := inv_exponent D (s := -1) (by norm_num) g0 g1
  have hkl : |k * Real.log u| ≤ 400.1 := by
    rw [abs_mul]
    exact (mul_le_mul hkb hlb (abs_nonneg _) (by norm_num)).trans (by norm_num)
  have hkn : 0 ≤ k * Real.log u := by
    have h2 := Real.log_nonpos hu.le h1.le
    have : k ≤ 0 := by
      obtain ⟨a1, a2⟩ := abs_le.1 hk
      by_contra hc
      have := mul_pos hg (not_le.1 hc)
      linarith
    exact mul_nonneg_of_nonpos_of_nonpos this h2
  obtain ⟨p, ep, hp0, hp⟩ := pow_log P hd hu (hkl.trans (by norm_num))
  obtain ⟨a1, a2⟩ := abs_le.1 hp
  obtain ⟨b1, b2⟩ := abs_le.1 hkl
  have hp9 : 0.9 ≤ p := by
    have : Real.log 0.9 ≤ Real.log p := by
      have := Real.log_le_sub_one_of_pos (show (0 : ℝ) < 0.9 by norm_num)
      linarith
    exact (Real.log_le_log_iff (by norm_num) hp0).1 this
  have hpu : p ≤ 2 ^ (600 : ℕ) := by
    rw [← Real.log_le_log_iff hp0 (by positivity), Real.log_pow]
    have := Real.log_two_gt_d9
    push_cast; linarith
  have hp1 : |p - 1| ≤ p := abs_le.2 ⟨by linarith, by linarith⟩
  have n1 : (2 : ℝ) ^ (600 : ℕ) ≤ 2 ^ (1020 : ℤ) := by
    rw [← zpow_natCast]; exact zpow_le_zpow_right₀ one_le_two (by norm_num)
  obtain ⟨x, ex, hx⟩ := rnd_err D (x := p - 1) ((hp1.trans hpu).trans n1)
  have htl := tiny_le
  have hxb : |x| ≤ 2 * p := by
    have := abs_add_le (x - (p - 1)) (p - 1)
    rw [sub_add_cancel] at this
    linarith
  have hxt : |x * theta| ≤ 2 ^ (1020 : ℤ) := by
    rw [abs_mul, abs_of_pos ht]
    have h16 : theta ≤ 2 ^ (400 : ℕ) := by
      refine t1.trans ?_
      rw [show (2 : ℝ) ^ (400 : ℕ) = (2 ^ 4) ^ (100 : ℕ) by rw [← pow_mul]]
      norm_num
    have e : (2 : ℝ) ^ (1020 : ℤ) = 2 ^ (601 : ℕ) * 2 ^ (419 : ℕ) := by
      rw [← pow_add, ← zpow_natCast]; norm_num
    have h2 : |x| ≤ 2 ^ (601 : ℕ) := by rw [show (2 : ℝ) ^ (601 : ℕ) = 2 * 2 ^ (600 : ℕ) from pow_succ' 2 600]; linarith
    have h3 : theta ≤ 2 ^ (419 : ℕ) := h16.trans (pow_le_pow_right₀ one_le_two (by norm_num))
    rw [e]
    exact mul_le_mul h2 h3 ht.le (by positivity)
  obtain ⟨r, er, hr⟩ := rnd_err D (x := x * theta) hxt
  have ht2 := tiny_scale (theta := theta) (le_trans (by norm_num) t0)
  rw [abs_mul, abs_of_pos ht] at hr
  have hw : |(1 + r / theta) - p| ≤ 4e-16 * p := by
    have e : (1 + r / theta) - p = (r - x * theta) / theta + (x - (p - 1)) := by field_simp; ring
    have h2 : |(r - x * theta) / theta| ≤ 1.2e-16 * |x| + 1e-20 := by
      rw [abs_div, abs_of_pos ht, div_le_iff₀ ht]; linarith
    have h3 : |x| ≤ (1 + 1.2e-16) * |p - 1| + tiny := by
      have := abs_add_le (x - (p - 1)) (p - 1)
      rw [sub_add_cancel] at this
      linarith
    rw [e]
    refine (abs_add_le _ _).trans ?_
    linarith
  obtain ⟨hw0, hwl⟩ := log_rel hp0 hw (by norm_num)
  refine ⟨r, ?_, ?_⟩
  · show M.mul (M.sub (M.pow (fin u) (M.div (fin (-1)) (fin gamma))) 1) (fin theta) = _
    rw [Machine.div_fin _ hg.ne', ek, ep, one_def, Machine.sub_fin, ex, Machine.mul_fin, er]
  · have e : paretoLaw gamma theta r = 1 - Real.exp (-max (gamma * Real.log (1 + r / theta)) 0) := by
      unfold paretoLaw
      split_ifs with h
      · have h2 : r / theta ≤ 0 := div_nonpos_of_nonpos_of_nonneg h ht.le
        have := Real.log_nonpos hw0.le (by linarith)
        rw [max_eq_right (mul_nonpos_of_nonneg_of_nonpos hg.le this)]; simp
      · have h2 : 0 < r / theta := div_pos (not_le.1 h) ht
        have := Real.log_nonneg (show 1 ≤ 1 + r / theta by linarith)
        rw [max_eq_left (mul_nonneg hg.le this), Real.rpow_def_of_pos hw0]
        congr 2; ring
    rw [e]
    refine tail_close hu h1.le (exponent_close hg hk hlb ?_)
    obtain ⟨c1, c2⟩ := abs_le.1 hwl
    exact abs_le.2 ⟨by linarith, by linarith⟩

theorem weibull_value (D : DoubleWithin M d) (P : FunctionsWithin M d) (hd : d ≤ 9e-16) {theta beta u : ℝ} (b0 : 1 / 10 ≤ beta) (b1 : beta ≤ 1e15)
    (t0 : 1e-100 ≤ theta) (t1 : theta ≤ 1e100) (hR : M.Rep u) (h0 : 2 ^ (-53 : ℤ) ≤ u) (h1 : u ≤ 1) :
    ∃ r, (weibull M (fin theta) (fin beta)).draw (fin u) = fin r ∧ |weibullLaw theta beta r - (1 - u)| ≤ 1e-14 + 2.3e-15 * beta := by
  have hb : 0 < beta := by linarith
  have ht : 0 < theta := lt_of_lt_of_le (by norm_num) t0
  have hu : 0 < u := lt_of_lt_of_le (by positivity) h0
  obtain ⟨k, ek, hk, hkb⟩ := inv_exponent D (s := 1) (by norm_num) b0 b1
  have hk0 : 0 < k := by
    obtain ⟨a1, a2⟩ := abs_le.1 hk
    by_contra hc
    have := mul_nonpos_of_nonneg_of_nonpos hb.le (not_lt.1 hc)
    linarith
  have hdraw : ∀ l, M.ln (fin u) = fin l → (weibull M (fin theta) (fin beta)).draw (fin u) = M.mul (fin theta) (M.pow (fin (-l)) (fin k)) := by
    intro l hl
    show M.mul (fin theta) (M.pow (-M.ln (fin u)) (M.div 1 (fin beta))) = _
    rw [hl, neg_fin, one_def, Machine.div_fin _ hb.ne', ek]
  rcases h1.eq_or_lt with rfl | h1
  · refine ⟨0, ?_, ?_⟩
    · rw [hdraw 0 P.ln_one, neg_zero, P.pow_zero k hk0, Machine.mul_fin, mul_zero]
      rw [D.rnd]
      exact (ieee_rounding (by norm_num) (by norm_num) (by norm_num)).zero
    · rw [weibullLaw, if_pos le_rfl]; norm_num; linarith
  have hone := near_one D hR h1
  have hlb := log_bound (w := u) (le_trans (by norm_num) h0) (h1.le.trans (by norm_num))
  have hl1 : 2 ^ (-53 : ℤ) ≤ -Real.log u := by
    have := Real.log_le_sub_one_of_pos hu
    linarith
  have hl0 : Real.log u < 0 := Real.log_neg hu h1
  rw [abs_of_neg hl0] at hlb
  obtain ⟨l, el, hl⟩ := D.ln u hu (by rw [abs_of_neg hl0]; exact hlb.trans (by norm_num))
  rw [abs_of_neg hl0] at hl
  change _ ≤ _ + tiny at hl
  have htn : tiny ≤ 1e-16 * -Real.log u := by
    have := tiny_scale (theta := 1e-17) (by norm_num)
    norm_num at hl1
    linarith
  have hl' : |-l - -Real.log u| ≤ 1e-15 * -Real.log u := by
    rw [show -l - -Real.log u = -(l - Real.log u) by ring, abs_neg]
    have : d * -Real.log u ≤ 9e-16 * -Real.log u := mul_le_mul_of_nonneg_right hd (by linarith)
    linarith
  obtain ⟨hn0, hnl⟩ := log_rel (by linarith) hl' (by norm_num)
  obtain ⟨n1, n2⟩ := abs_le.1 hl'
  have hlb2 := log_bound (w := -l) (le_trans (by norm_num) (half_le hl1 (by linarith) hl' (by norm_num))) (by norm_num; linarith)
  have hkl : |k * Real.log (-l)| ≤ 400.1 := by
    rw [abs_mul]
    exact (mul_le_mul hkb hlb2 (abs_nonneg _) (by norm_num)).trans (by norm_num)
  obtain ⟨p, ep, hp0, hp⟩ := pow_log P hd hn0 (hkl.trans (by norm_num))
  have hlt := log_theta t0 t1
  obtain ⟨r, er, hr0, hr⟩ := mul_log D ht hp0 (by
    obtain ⟨a1, a2⟩ := abs_le.1 hp
    obtain ⟨b1, b2⟩ := abs_le.1 hkl
    obtain ⟨c1, c2⟩ := abs_le.1 hlt
    exact abs_le.2 ⟨by linarith, by linarith⟩)
  refine ⟨r, by rw [hdraw l el, ep, Machine.mul_fin, er], ?_⟩
  have e : weibullLaw theta beta r = 1 - Real.exp (-Real.exp (beta * (Real.log r - Real.log theta))) := by
    rw [weibullLaw, if_neg (not_le.2 hr0), Real.rpow_def_of_pos (div_pos hr0 ht), Real.log_div hr0.ne' ht.ne', mul_comm beta]
  have e2 : 1 - u = 1 - Real.exp (-Real.exp (Real.log (-Real.log u))) := by
    rw [Real.exp_log (by linarith), neg_neg, Real.exp_log hu]
  rw [e, e2]
  refine (extreme_lip _ _).trans ?_
  have e3 : beta * (Real.log r - Real.log theta) - Real.log (-Real.log u) =
      beta * (Real.log r - Real.log theta - k * Real.log (-l)) + (beta * k - 1) * Real.log (-l) + (Real.log (-l) - Real.log (-Real.log u)) := by ring
  rw [e3]
  refine (abs_add_three _ _ _).trans ?_
  rw [abs_mul, abs_mul, abs_of_pos hb]
  have q1 : |Real.log r - Real.log theta - k * Real.log (-l)| ≤ 2.3e-15 := by
    obtain ⟨a1, a2⟩ := abs_le.1 hp
    obtain ⟨b1, b2⟩ := abs_le.1 hr
    exact abs_le.2 ⟨by linarith, by linarith⟩
  have q2 := mul_le_mul_of_nonneg_left q1 hb.le
  have q3 : |beta * k - 1| * |Real.log (-l)| ≤ 1.3e-16 * 40 := mul_le_mul hk hlb2 (abs_nonneg _) (by norm_num)
  linarith

theorem powerlaw_law {gamma theta : ℝ} (hg : 0 < gamma) (ht : 0 < theta) :
    Monotone (powerlawLaw gamma theta) ∧ ∀ t, 0 ≤ powerlawLaw gamma theta t ∧ powerlawLaw gamma theta t ≤ 1 := by
  have h : ∀ t, theta < t → (t / theta) ^ (-gamma) ≤ 1 ∧ 0 ≤ (t / theta) ^ (-gamma) := fun t h =>
    ⟨Real.rpow_le_one_of_one_le_of_nonpos (by rw [le_div_iff₀ ht]; linarith) (by linarith), Real.rpow_nonneg (div_nonneg (by linarith) ht.le) _⟩
  refine ⟨fun s t hst => ?_, fun t => ?_⟩
  · unfold powerlawLaw
    split_ifs with a b b
    · exact le_rfl
    · linarith [(h t (not_le.1 b)).1]
    · exact absurd (hst.trans b) a
    · have : (t / theta) ^ (-gamma) ≤ (s / theta) ^ (-gamma) :=
        Real.rpow_le_rpow_of_nonpos (div_pos (ht.trans (not_le.1 a)) ht) (div_le_div_of_nonneg_right hst ht.le) (by linarith)
      linarith
  · unfold powerlawLaw
    split_ifs with a
    · exact ⟨le_rfl, zero_le_one⟩
    · have := h t (not_le.1 a)
      exact ⟨by linarith, by linarith⟩

theorem pareto_law {gamma theta : ℝ} (hg : 0 < gamma) (ht : 0 < theta) :
    Monotone (paretoLaw gamma theta) ∧ ∀ t, 0 ≤ paretoLaw gamma theta t ∧ paretoLaw gamma theta t ≤ 1 := by
  have e : ∀ t, paretoLaw gamma theta t = powerlawLaw gamma theta (t + theta) := fun t => by
    unfold paretoLaw powerlawLaw
    rw [show (t + theta) / theta = 1 + t / theta by field_simp; ring]
    simp only [add_le_iff_nonpos_left]
  obtain ⟨h1, h2⟩ := powerlaw_law hg ht
  refine ⟨fun s t hst => ?_, fun t => ?_⟩
  · rw [e, e]; exact h1 (by linarith)
  · rw [e]; exact h2 _

theorem weibull_law {theta beta : ℝ} (ht : 0 < theta) (hb : 0 < beta) :
    Monotone (weibullLaw theta beta) ∧ ∀ t, 0 ≤ weibullLaw theta beta t ∧ weibullLaw theta beta t ≤ 1 := by
  have h : ∀ t, 0 < t → Real.exp (-(t / theta) ^ beta) ≤ 1 := fun t h => by
    rw [Real.exp_le_one_iff]
    have := Real.rpow_nonneg (div_nonneg h.le ht.le) beta
    linarith
  refine ⟨fun s t hst => ?_, fun t => ?_⟩
  · unfold weibullLaw
    split_ifs with a b b
    · exact le_rfl
    · linarith [h t (not_le.1 b)]
    · exact absurd (hst.trans b) a
    · have : (s / theta) ^ beta ≤ (t / theta) ^ beta :=
        Real.rpow_le_rpow (div_nonneg (not_le.1 a).le ht.le) (div_le_div_of_nonneg_right hst ht.le) hb.le
      have := Real.exp_le_exp.2 (neg_le_neg this)
      linarith
  · unfold weibullLaw
    split_ifs with a
    · exact ⟨le_rfl, zero_le_one⟩
    · exact ⟨by linarith [h t (not_le.1 a)], by linarith [Real.exp_pos (-(t / theta) ^ beta)]⟩

end Trng.PeriodLaw
