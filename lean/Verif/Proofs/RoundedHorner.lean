import Verif.Proofs.RoundedError

/-! Horner's rule in the arithmetic of `double`. -/
namespace Trng.Inverse
open XR Machine Spec Rounded
open Classical

variable {M : Machine} {d : ℝ}

theorem le_big {x : ℝ} (h : x ≤ 1e20) : x ≤ 1e300 := h.trans (by norm_num)

theorem lit_err (D : DoubleWithin M d) (c : ℝ) (h : |c| ≤ 1e20) : ∃ r : ℝ, lit M c = fin r ∧ |r - c| ≤ 1.2e-16 * |c| + tiny :=
  rnd_err D (big_le h (by norm_num))
theorem mul_err (D : DoubleWithin M d) {a b : ℝ} (h : |a * b| ≤ 1e300) :
    ∃ r : ℝ, M.mul (fin a) (fin b) = fin r ∧ |r - a * b| ≤ 1.2e-16 * |a * b| + tiny := rnd_err D (big_le h le_rfl)
theorem add_err (D : DoubleWithin M d) {a b : ℝ} (h : |a + b| ≤ 1e300) :
    ∃ r : ℝ, M.add (fin a) (fin b) = fin r ∧ |r - (a + b)| ≤ 1.2e-16 * |a + b| + tiny := rnd_err D (big_le h le_rfl)
theorem sub_err (D : DoubleWithin M d) {a b : ℝ} (h : |a - b| ≤ 1e300) :
    ∃ r : ℝ, M.sub (fin a) (fin b) = fin r ∧ |r - (a - b)| ≤ 1.2e-16 * |a - b| + tiny := by
  rw [sub_fin]; exact rnd_err D (big_le h le_rfl)
theorem div_err (D : DoubleWithin M d) {a b : ℝ} (hb : b ≠ 0) (h : |a / b| ≤ 1e300) :
    ∃ r : ℝ, M.div (fin a) (fin b) = fin r ∧ |r - a / b| ≤ 1.2e-16 * |a / b| + tiny := by
  rw [div_fin _ hb]; exact rnd_err D (big_le h le_rfl)

/-- One step of Horner's rule, from an approximation `v` of `h`; `H` is the sum of the absolute values. -/
theorem horner_step (D : DoubleWithin M d) {v h H q c k : ℝ} (hq : 0 ≤ q) (hk : 0 ≤ k) (hk' : k ≤ 20) (hv : |v - h| ≤ k * 1.2e-16 * H)
    (hh : |h| ≤ H) (h0 : 1e-3 ≤ H * q + |c|) (h1 : H * q + |c| ≤ 1e15) {b : ℝ} (hb : |b - c| ≤ 1.2e-16 * |c| + tiny) :
    ∃ r : ℝ, M.add (M.mul (fin v) (fin q)) (fin b) = fin r ∧ |r - (h * q + c)| ≤ (k + 3) * 1.2e-16 * (H * q + |c|) ∧
      |h * q + c| ≤ H * q + |c| := by
  have hH : 0 ≤ H := (abs_nonneg h).trans hh
  have hC := abs_nonneg c
  have ht := tiny_le
  have ht0 := tiny_pos
  have hX : 0 ≤ H * q := mul_nonneg hH hq
  have e1 : |v * q - h * q| ≤ k * 1.2e-16 * (H * q) := by
    rw [← sub_mul, abs_mul, abs_of_nonneg hq, ← mul_assoc]
    exact mul_le_mul_of_nonneg_right hv hq
  have e2 : |h * q| ≤ H * q := by rw [abs_mul, abs_of_nonneg hq]; exact mul_le_mul_of_nonneg_right hh hq
  have hkX : 0 ≤ k * (H * q) := mul_nonneg hk hX
  have hkC : 0 ≤ k * |c| := mul_nonneg hk hC
  have hkX' : k * (H * q) ≤ 20 * (H * q) := mul_le_mul_of_nonneg_right hk' hX
  generalize H * q = X at *
  have e1' : |v * q - h * q| ≤ 1.2e-16 * (k * X) := e1.trans (le_of_eq (by ring))
  have a1 : |v * q| ≤ X + 1.2e-16 * (k * X) := by
    have := abs_add_le (v * q - h * q) (h * q)
    rw [sub_add_cancel] at this; linarith
  obtain ⟨p, ep, hp⟩ := mul_err D (a := v) (b := q) (le_trans a1 (le_trans (by norm_num at h1 ⊢; linarith) (le_big (x := 1e20) le_rfl)))
  have a2 : |p| ≤ |v * q| + (1.2e-16 * |v * q| + tiny) := by
    have := abs_add_le (p - v * q) (v * q)
    rw [sub_add_cancel] at this; linarith
  have a3 : |b| ≤ |c| + (1.2e-16 * |c| + tiny) := by
    have := abs_add_le (b - c) c
    rw [sub_add_cancel] at this; linarith
  have a4 : |p + b| ≤ |p| + |b| := abs_add_le _ _
  obtain ⟨r, er, hr⟩ := add_err D (a := p) (b := b) (by
    refine le_trans a4 (le_trans ?_ (le_big (x := 1e20) le_rfl))
    linarith)
  refine ⟨r, by rw [ep, er], ?_, (abs_add_le _ _).trans (by linarith)⟩
  have a5 : |r - (h * q + c)| ≤ |r - (p + b)| + |p - v * q| + |v * q - h * q| + |b - c| := by
    have t1 := abs_add_le (r - (p + b)) (p + b - (h * q + c))
    have t2 := abs_add_le (p - h * q) (b - c)
    have t3 := abs_add_le (p - v * q) (v * q - h * q)
    rw [show r - (p + b) + (p + b - (h * q + c)) = r - (h * q + c) by ring] at t1
    rw [show p - h * q + (b - c) = p + b - (h * q + c) by ring] at t2
    rw [show p - v * q + (v * q - h * q) = p - h * q by ring] at t3
    linarith
  have e : (k + 3) * 1.2e-16 * (X + |c|) = 1.2e-16 * (k * X) + 1.2e-16 * (k * |c|) + 3.6e-16 * X + 3.6e-16 * |c| := by ring
  rw [e]
  linarith

theorem horner (D : DoubleWithin M d) {v h H q c k B C b : ℝ} (hq : 0 ≤ q) (hq' : q ≤ 40) (hk : 0 ≤ k) (hk' : k ≤ 20) (hC : |c| = C) (hC0 : 1e-3 ≤ C)
    (hB' : B * 40 + C ≤ 1e15) (hb : |b - c| ≤ 1.2e-16 * |c| + tiny) (S : |v - h| ≤ k * 1.2e-16 * H ∧ |h| ≤ H ∧ H ≤ B) :
    ∃ r : ℝ, M.add (M.mul (fin v) (fin q)) (fin b) = fin r ∧ |r - (h * q + c)| ≤ (k + 3) * 1.2e-16 * (H * q + C) ∧
      |h * q + c| ≤ H * q + C ∧ H * q + C ≤ B * 40 + C := by
  obtain ⟨hv, hh, hB⟩ := S
  have hH : 0 ≤ H := (abs_nonneg h).trans hh
  have h1 : H * q ≤ B * 40 := mul_le_mul hB hq' hq (hH.trans hB)
  have h0 : 0 ≤ H * q := mul_nonneg hH hq
  obtain ⟨r, e, a, b⟩ := horner_step D (c := c) hq hk hk' hv hh (by rw [hC]; linarith) (by rw [hC]; linarith) hb
  rw [hC] at a b
  exact ⟨r, e, a, b, by linarith⟩

theorem horner_start {c b C : ℝ} (hb : |b - c| ≤ 1.2e-16 * |c| + tiny) (hC : |c| = C) (hC0 : 1e-3 ≤ C) :
    |b - c| ≤ 2 * 1.2e-16 * C ∧ |c| ≤ C ∧ C ≤ C := by
  have := tiny_le
  rw [hC] at hb
  exact ⟨by linarith, hC.le, le_rfl⟩

/-- the numerator of the outer regions -/
noncomputable def tailNE (q : ℝ) : ℝ := (((((-7.784894002430293e-03 * q + -3.223964580411365e-01) * q + -2.400758277161838e+00) * q + -2.549732539343734e+00) * q + 4.374664141464968e+00) * q + 2.938163982698783e+00)
/-- the same with the absolute values of the coefficients -/
noncomputable def tailNA (q : ℝ) : ℝ := (((((7.784894002430293e-03 * q + 3.223964580411365e-01) * q + 2.400758277161838e+00) * q + 2.549732539343734e+00) * q + 4.374664141464968e+00) * q + 2.938163982698783e+00)

theorem tailN_err (D : DoubleWithin M d) {q : ℝ} (hq : 0 ≤ q) (hq' : q ≤ 40) :
    ∃ r : ℝ, tailNum M (fin q) = fin r ∧ |r - tailNE q| ≤ 17 * 1.2e-16 * tailNA q := by
  obtain ⟨c0, e0, h0⟩ := lit_err D (-7.784894002430293e-03) (by norm_num [abs_le])
  obtain ⟨c1, e1, h1⟩ := lit_err D (-3.223964580411365e-01) (by norm_num [abs_le])
  obtain ⟨c2, e2, h2⟩ := lit_err D (-2.400758277161838e+00) (by norm_num [abs_le])
  obtain ⟨c3, e3, h3⟩ := lit_err D (-2.549732539343734e+00) (by norm_num [abs_le])
  obtain ⟨c4, e4, h4⟩ := lit_err D (4.374664141464968e+00) (by norm_num [abs_le])
  obtain ⟨c5, e5, h5⟩ := lit_err D (2.938163982698783e+00) (by norm_num [abs_le])
  have s0 := horner_start h0 (C := 7.784894002430293e-03) (by norm_num [abs_of_pos, abs_of_neg]) (by norm_num)
  obtain ⟨r1, f1, s1⟩ := horner D (c := -3.223964580411365e-01) (C := 3.223964580411365e-01) hq hq' (by norm_num) (by norm_num) (by norm_num [abs_of_pos, abs_of_neg]) (by norm_num) (by norm_num) h1 s0
  obtain ⟨r2, f2, s2⟩ := horner D (c := -2.400758277161838e+00) (C := 2.400758277161838e+00) hq hq' (by norm_num) (by norm_num) (by norm_num [abs_of_pos, abs_of_neg]) (by norm_num) (by norm_num) h2 s1
  obtain ⟨r3, f3, s3⟩ := horner D (c := -2.549732539343734e+00) (C := 2.549732539343734e+00) hq hq' (by norm_num) (by norm_num) (by norm_num [abs_of_pos, abs_of_neg]) (by norm_num) (by norm_num) h3 s2
  obtain ⟨r4, f4, s4⟩ := horner D (c := 4.374664141464968e+00) (C := 4.374664141464968e+00) hq hq' (by norm_num) (by norm_num) (by norm_num [abs_of_pos, abs_of_neg]) (by norm_num) (by norm_num) h4 s3
  obtain ⟨r5, f5, s5⟩ := horner D (c := 2.938163982698783e+00) (C := 2.938163982698783e+00) hq hq' (by norm_num) (by norm_num) (by norm_num [abs_of_pos, abs_of_neg]) (by norm_num) (by norm_num) h5 s4
  refine ⟨r5, by unfold tailNum; rw [e0, e1, e2, e3, e4, e5, f1, f2, f3, f4, f5], ?_⟩
  have := s5.1
  rw [tailNE, tailNA]
  refine this.trans (le_of_eq ?_)
  norm_num

/-- the denominator of the outer regions -/
noncomputable def tailDE (q : ℝ) : ℝ := ((((7.784695709041462e-03 * q + 3.224671290700398e-01) * q + 2.445134137142996e+00) * q + 3.754408661907416e+00) * q + 1)
/-- the same with the absolute values of the coefficients -/
noncomputable def tailDA (q : ℝ) : ℝ := ((((7.784695709041462e-03 * q + 3.224671290700398e-01) * q + 2.445134137142996e+00) * q + 3.754408661907416e+00) * q + 1)

theorem tailD_err (D : DoubleWithin M d) {q : ℝ} (hq : 0 ≤ q) (hq' : q ≤ 40) :
    ∃ r : ℝ, tailDen M (fin q) = fin r ∧ |r - tailDE q| ≤ 14 * 1.2e-16 * tailDA q := by
  obtain ⟨c0, e0, h0⟩ := lit_err D (7.784695709041462e-03) (by norm_num [abs_le])
  obtain ⟨c1, e1, h1⟩ := lit_err D (3.224671290700398e-01) (by norm_num [abs_le])
  obtain ⟨c2, e2, h2⟩ := lit_err D (2.445134137142996e+00) (by norm_num [abs_le])
  obtain ⟨c3, e3, h3⟩ := lit_err D (3.754408661907416e+00) (by norm_num [abs_le])
  have s0 := horner_start h0 (C := 7.784695709041462e-03) (by norm_num [abs_of_pos, abs_of_neg]) (by norm_num)
  obtain ⟨r1, f1, s1⟩ := horner D (c := 3.224671290700398e-01) (C := 3.224671290700398e-01) hq hq' (by norm_num) (by norm_num) (by norm_num [abs_of_pos, abs_of_neg]) (by norm_num) (by norm_num) h1 s0
  obtain ⟨r2, f2, s2⟩ := horner D (c := 2.445134137142996e+00) (C := 2.445134137142996e+00) hq hq' (by norm_num) (by norm_num) (by norm_num [abs_of_pos, abs_of_neg]) (by norm_num) (by norm_num) h2 s1
  obtain ⟨r3, f3, s3⟩ := horner D (c := 3.754408661907416e+00) (C := 3.754408661907416e+00) hq hq' (by norm_num) (by norm_num) (by norm_num [abs_of_pos, abs_of_neg]) (by norm_num) (by norm_num) h3 s2
  obtain ⟨r4, f4, s4⟩ := horner D (c := 1) (C := 1) hq hq' (by norm_num) (by norm_num) (by norm_num [abs_of_pos, abs_of_neg]) (by norm_num) (by norm_num) (b := 1) (by have := tiny_pos; norm_num; linarith) s3
  refine ⟨r4, by unfold tailDen; rw [e0, e1, e2, e3, one_def, f1, f2, f3, f4], ?_⟩
  have := s4.1
  rw [tailDE, tailDA]
  refine this.trans (le_of_eq ?_)
  norm_num

/-- the numerator of the central region -/
noncomputable def centreNE (q : ℝ) : ℝ := (((((-3.969683028665376e+01 * q + 2.209460984245205e+02) * q + -2.759285104469687e+02) * q + 1.383577518672690e+02) * q + -3.066479806614716e+01) * q + 2.506628277459239e+00)
/-- the same with the absolute values of the coefficients -/
noncomputable def centreNA (q : ℝ) : ℝ := (((((3.969683028665376e+01 * q + 2.209460984245205e+02) * q + 2.759285104469687e+02) * q + 1.383577518672690e+02) * q + 3.066479806614716e+01) * q + 2.506628277459239e+00)

theorem centreN_err (D : DoubleWithin M d) {q : ℝ} (hq : 0 ≤ q) (hq' : q ≤ 40) :
    ∃ r : ℝ, centreNum M (fin q) = fin r ∧ |r - centreNE q| ≤ 17 * 1.2e-16 * centreNA q := by
  obtain ⟨c0, e0, h0⟩ := lit_err D (-3.969683028665376e+01) (by norm_num [abs_le])
  obtain ⟨c1, e1, h1⟩ := lit_err D (2.209460984245205e+02) (by norm_num [abs_le])
  obtain ⟨c2, e2, h2⟩ := lit_err D (-2.759285104469687e+02) (by norm_num [abs_le])
  obtain ⟨c3, e3, h3⟩ := lit_err D (1.383577518672690e+02) (by norm_num [abs_le])
  obtain ⟨c4, e4, h4⟩ := lit_err D (-3.066479806614716e+01) (by norm_num [abs_le])
  obtain ⟨c5, e5, h5⟩ := lit_err D (2.506628277459239e+00) (by norm_num [abs_le])
  have s0 := horner_start h0 (C := 3.969683028665376e+01) (by norm_num [abs_of_pos, abs_of_neg]) (by norm_num)
  obtain ⟨r1, f1, s1⟩ := horner D (c := 2.209460984245205e+02) (C := 2.209460984245205e+02) hq hq' (by norm_num) (by norm_num) (by norm_num [abs_of_pos, abs_of_neg]) (by norm_num) (by norm_num) h1 s0
  obtain ⟨r2, f2, s2⟩ := horner D (c := -2.759285104469687e+02) (C := 2.759285104469687e+02) hq hq' (by norm_num) (by norm_num) (by norm_num [abs_of_pos, abs_of_neg]) (by norm_num) (by norm_num) h2 s1
  obtain ⟨r3, f3, s3⟩ := horner D (c := 1.383577518672690e+02) (C := 1.383577518672690e+02) hq hq' (by norm_num) (by norm_num) (by norm_num [abs_of_pos, abs_of_neg]) (by norm_num) (by norm_num) h3 s2
  obtain ⟨r4, f4, s4⟩ := horner D (c := -3.066479806614716e+01) (C := 3.066479806614716e+01) hq hq' (by norm_num) (by norm_num) (by norm_num [abs_of_pos, abs_of_neg]) (by norm_num) (by norm_num) h4 s3
  obtain ⟨r5, f5, s5⟩ := horner D (c := 2.506628277459239e+00) (C := 2.506628277459239e+00) hq hq' (by norm_num) (by norm_num) (by norm_num [abs_of_pos, abs_of_neg]) (by norm_num) (by norm_num) h5 s4
  refine ⟨r5, by unfold centreNum; rw [e0, e1, e2, e3, e4, e5, f1, f2, f3, f4, f5], ?_⟩
  have := s5.1
  rw [centreNE, centreNA]
  refine this.trans (le_of_eq ?_)
  norm_num

/-- the denominator of the central region -/
noncomputable def centreDE (q : ℝ) : ℝ := (((((-5.447609879822406e+01 * q + 1.615858368580409e+02) * q + -1.556989798598866e+02) * q + 6.680131188771972e+01) * q + -1.328068155288572e+01) * q + 1)
/-- the same with the absolute values of the coefficients -/
noncomputable def centreDA (q : ℝ) : ℝ := (((((5.447609879822406e+01 * q + 1.615858368580409e+02) * q + 1.556989798598866e+02) * q + 6.680131188771972e+01) * q + 1.328068155288572e+01) * q + 1)

theorem centreD_err (D : DoubleWithin M d) {q : ℝ} (hq : 0 ≤ q) (hq' : q ≤ 40) :
    ∃ r : ℝ, centreDen M (fin q) = fin r ∧ |r - centreDE q| ≤ 17 * 1.2e-16 * centreDA q := by
  obtain ⟨c0, e0, h0⟩ := lit_err D (-5.447609879822406e+01) (by norm_num [abs_le])
  obtain ⟨c1, e1, h1⟩ := lit_err D (1.615858368580409e+02) (by norm_num [abs_le])
  obtain ⟨c2, e2, h2⟩ := lit_err D (-1.556989798598866e+02) (by norm_num [abs_le])
  obtain ⟨c3, e3, h3⟩ := lit_err D (6.680131188771972e+01) (by norm_num [abs_le])
  obtain ⟨c4, e4, h4⟩ := lit_err D (-1.328068155288572e+01) (by norm_num [abs_le])
  have s0 := horner_start h0 (C := 5.447609879822406e+01) (by norm_num [abs_of_pos, abs_of_neg]) (by norm_num)
  obtain ⟨r1, f1, s1⟩ := horner D (c := 1.615858368580409e+02) (C := 1.615858368580409e+02) hq hq' (by norm_num) (by norm_num) (by norm_num [abs_of_pos, abs_of_neg]) (by norm_num) (by norm_num) h1 s0
  obtain ⟨r2, f2, s2⟩ := horner D (c := -1.556989798598866e+02) (C := 1.556989798598866e+02) hq hq' (by norm_num) (by norm_num) (by norm_num [abs_of_pos, abs_of_neg]) (by norm_num) (by norm_num) h2 s1
  obtain ⟨r3, f3, s3⟩ := horner D (c := 6.680131188771972e+01) (C := 6.680131188771972e+01) hq hq' (by norm_num) (by norm_num) (by norm_num [abs_of_pos, abs_of_neg]) (by norm_num) (by norm_num) h3 s2
  obtain ⟨r4, f4, s4⟩ := horner D (c := -1.328068155288572e+01) (C := 1.328068155288572e+01) hq hq' (by norm_num) (by norm_num) (by norm_num [abs_of_pos, abs_of_neg]) (by norm_num) (by norm_num) h4 s3
  obtain ⟨r5, f5, s5⟩ := horner D (c := 1) (C := 1) hq hq' (by norm_num) (by norm_num) (by norm_num [abs_of_pos, abs_of_neg]) (by norm_num) (by norm_num) (b := 1) (by have := tiny_pos; norm_num; linarith) s4
  refine ⟨r5, by unfold centreDen; rw [e0, e1, e2, e3, e4, one_def, f1, f2, f3, f4, f5], ?_⟩
  have := s5.1
  rw [centreDE, centreDA]
  refine this.trans (le_of_eq ?_)
  norm_num

end Trng.Inverse
