import Verif.Proofs.AcklamInv
import Mathlib.Analysis.Complex.ExponentialBounds

/-! The accuracy of inv_Phi, inv_erf and inv_erfc, over the whole interval. -/
namespace Trng.Acklam
open PolyBound Set Filter Topology XR
open Classical

/-! ### The code of the approximation and the polynomials -/

theorem acklamTail_fin {q : ℝ} (h : 0 ≤ q) : acklamTail (fin q) = fin (-AT q) := by
  have hd := dP_pos h
  have e1 : pev dP q = 10 ^ 18 * ((((7.784695709041462e-03 * q + 3.224671290700398e-01) * q + 2.445134137142996e+00) * q
    + 3.754408661907416e+00) * q + 1) := by
    simp only [pev, dP]; push_cast; ring
  have e2 : pev cP q = -(10 ^ 18 * (((((-7.784894002430293e-03 * q + -3.223964580411365e-01) * q + -2.400758277161838e+00) * q
    + -2.549732539343734e+00) * q + 4.374664141464968e+00) * q + 2.938163982698783e+00)) := by
    simp only [pev, cP]; push_cast; ring
  unfold acklamTail
  simp only [fin_mul, fin_add, ofNat_fin]
  rw [e1] at hd
  have hd' := pos_of_mul_pos_right hd (by positivity : (0 : ℝ) ≤ 10 ^ 18)
  rw [Nat.cast_one, fin_div hd'.ne', AT, e1, e2, neg_div, neg_neg, mul_div_mul_left _ _ (by positivity)]

theorem acklamCentre_fin {q : ℝ} (h : |q| ≤ 0.47575003) : acklamCentre (fin q) = fin (AC q) := by
  have hq : q ^ 2 ≤ 0.2263381 := by
    rw [← sq_abs]; exact (sq_range (abs_nonneg q) h).2
  have hd := bP_pos (sq_nonneg q) hq
  have e1 : pev bP (q ^ 2) = 10 ^ 15 * (((((-5.447609879822406e+01 * (q * q) + 1.615858368580409e+02) * (q * q) + -1.556989798598866e+02) * (q * q)
    + 6.680131188771972e+01) * (q * q) + -1.328068155288572e+01) * (q * q) + 1) := by
    simp only [pev, bP]; push_cast; ring
  have e2 : q * pev aP (q ^ 2) = 10 ^ 15 * ((((((-3.969683028665376e+01 * (q * q) + 2.209460984245205e+02) * (q * q) + -2.759285104469687e+02) * (q * q)
    + 1.383577518672690e+02) * (q * q) + -3.066479806614716e+01) * (q * q) + 2.506628277459239e+00) * q) := by
    simp only [pev, aP]; push_cast; ring
  unfold acklamCentre
  simp only [fin_mul, fin_add, ofNat_fin]
  rw [e1] at hd
  have hd' := pos_of_mul_pos_right hd (by positivity : (0 : ℝ) ≤ 10 ^ 15)
  rw [Nat.cast_one, fin_div hd'.ne', AC, e1, e2, mul_div_mul_left _ _ (by positivity)]

/-- the argument of the approximation of the outer regions -/
noncomputable def qT (t : ℝ) : ℝ := Real.sqrt (-2 * Real.log t)

theorem approx_lower {u : ℝ} (h0 : 0 < u) (h1 : u < 0.02425) : invPhiApprox (fin u) = fin (-AT (qT u)) := by
  unfold invPhiApprox
  simp only [ofNat_fin, fin_lt, fin_eq]
  have hl : Real.log u ≤ 0 := Real.log_nonpos h0.le (by linarith)
  rw [if_neg (by push Not; norm_num; constructor <;> linarith), if_neg (by norm_num; linarith), if_neg (by norm_num; linarith), if_pos h1,
    ln_fin h0, neg_fin, fin_mul, sqrt_fin (by norm_num; linarith)]
  exact acklamTail_fin (Real.sqrt_nonneg _)

theorem approx_centre {u : ℝ} (h0 : 0.02425 ≤ u) (h1 : u < 1 - 0.02425) : invPhiApprox (fin u) = fin (AC (u - 1 / 2)) := by
  unfold invPhiApprox
  simp only [ofNat_fin, fin_lt, fin_eq]
  rw [if_neg (by push Not; norm_num; constructor <;> linarith), if_neg (by norm_num; linarith), if_neg (by norm_num; linarith), if_neg (not_lt.2 h0),
    if_pos h1, fin_sub, show u - 0.5 = u - 1 / 2 by norm_num]
  exact acklamCentre_fin (abs_le.2 ⟨by linarith, by linarith⟩)

theorem approx_upper {t : ℝ} (h0 : 0 < t) (h1 : t ≤ 0.02425) : invPhiApprox (fin (1 - t)) = fin (AT (qT t)) := by
  unfold invPhiApprox
  simp only [ofNat_fin, fin_lt, fin_eq]
  have hl : Real.log t ≤ 0 := Real.log_nonpos h0.le (by linarith)
  rw [if_neg (by push Not; norm_num; constructor <;> linarith), if_neg (by norm_num; linarith), if_neg (by norm_num; linarith), if_neg (by linarith),
    if_neg (by linarith), neg_fin, neg_fin, ln1p_fin (by linarith), fin_mul, show 1 + -(1 - t) = t by ring, sqrt_fin (by norm_num; linarith),
    show -((2 : ℕ) : ℝ) * Real.log t = -2 * Real.log t by norm_num]
  have := acklamTail_fin (q := qT t) (Real.sqrt_nonneg _)
  rw [qT] at this
  rw [this, neg_fin, neg_neg]; rfl

/-! ### The argument of the outer regions -/

theorem exp_q0 : Real.exp 3.7182645 ≤ 1 / 0.02425 := by
  have h1 := Real.exp_one_lt_d9
  have h2 := Real.exp_bound' (x := 0.7182645) (by norm_num) (by norm_num) (n := 7) (by norm_num)
  have h3 : Real.exp 0.7182645 ≤ 2.052 := by
    refine h2.trans ?_
    norm_num [Finset.sum_range_succ, Nat.factorial]
  have e : (3.7182645 : ℝ) = 1 + 1 + 1 + 0.7182645 := by norm_num
  rw [e, Real.exp_add, Real.exp_add, Real.exp_add]
  have h0 := Real.exp_pos 1
  calc Real.exp 1 * Real.exp 1 * Real.exp 1 * Real.exp 0.7182645 ≤ 2.7182818286 * 2.7182818286 * 2.7182818286 * 2.052 := by gcongr
    _ ≤ 1 / 0.02425 := by norm_num

theorem qT_sq {t : ℝ} (h0 : 0 < t) (h1 : t ≤ 1) : qT t ^ 2 = -2 * Real.log t :=
  Real.sq_sqrt (by linarith [Real.log_nonpos h0.le h1])

theorem exp_qT {t : ℝ} (h0 : 0 < t) (h1 : t ≤ 1) : Real.exp (-qT t ^ 2 / 2) = t := by
  rw [show -qT t ^ 2 / 2 = Real.log t by rw [qT_sq h0 h1]; ring, Real.exp_log h0]

theorem qT_ge {t : ℝ} (h0 : 0 < t) (h1 : t ≤ 0.02425) : 2.727 ≤ qT t := by
  refine Real.le_sqrt_of_sq_le ?_
  have : Real.log t ≤ -3.7182645 := by
    rw [Real.log_le_iff_le_exp h0, Real.exp_neg]
    have := Real.exp_pos 3.7182645
    calc t ≤ 0.02425 := h1
      _ = (1 / 0.02425)⁻¹ := by norm_num
      _ ≤ (Real.exp 3.7182645)⁻¹ := inv_anti₀ this exp_q0
  linarith

theorem qT_le {t : ℝ} (h0 : (2 : ℝ)⁻¹ ^ 1074 ≤ t) : qT t ≤ 38.6 := by
  refine Real.sqrt_le_iff.2 ⟨by norm_num, ?_⟩
  have hl : Real.log ((2 : ℝ)⁻¹ ^ 1074) ≤ Real.log t := Real.log_le_log (by positivity) h0
  rw [Real.log_pow, Real.log_inv] at hl
  have := Real.log_two_lt_d9
  norm_num at hl ⊢
  linarith

theorem qT_tiny {t : ℝ} (h : 0 < t) (h0 : t < (2 : ℝ)⁻¹ ^ 1074) : 38 ≤ qT t := by
  refine Real.le_sqrt_of_sq_le ?_
  have hl : Real.log t ≤ Real.log ((2 : ℝ)⁻¹ ^ 1074) := Real.log_le_log h h0.le
  rw [Real.log_pow, Real.log_inv] at hl
  have := Real.log_two_gt_d9
  norm_num at hl ⊢
  linarith

theorem AT_tiny {q : ℝ} (h : 38 ≤ q) : 30 ≤ AT q := by
  have hd := dP_pos (q := q) (by linarith)
  rw [AT, le_div_iff₀ hd]
  obtain ⟨s, hs, rfl⟩ : ∃ s : ℝ, 0 ≤ s ∧ q = 38 + s := ⟨q - 38, by linarith, by ring⟩
  rw [← sub_nonneg]
  simp only [pev, cP, dP]
  push_cast
  ring_nf
  positivity

/-! ### The solution and the approximation in the outer regions -/

theorem quantile_tail {t ζ : ℝ} (h0 : (2 : ℝ)⁻¹ ^ 1074 ≤ t) (h1 : t ≤ 0.02425) (hζ : PhiR (-ζ) = t) :
    1.9 ≤ ζ ∧ ζ * |AT (qT t) - ζ| ≤ 7.3e-6 := by
  have ht : 0 < t := lt_of_lt_of_le (by positivity) h0
  have hq0 := qT_ge ht h1
  have hq1 := qT_le h0
  have hX := (AT_bounds hq0 (hq1.trans (by norm_num))).1
  have h := tail hq0 hq1
  rw [exp_qT ht (by linarith), abs_le] at h
  set X := AT (qT t)
  have hle : t ≤ (1 + 7.3e-6) * PhiR (-X) := by nlinarith [h.1]
  have hz : 1.9 ≤ ζ := by
    by_contra hc
    push Not at hc
    have h2 : PhiR (-1.9) ≤ (1 + 7.3e-6) * PhiR (-X) := by
      refine le_trans ?_ hle
      rw [← hζ]; exact (strictMono_PhiR (by linarith)).le
    have := diff_le (x := 1.9) (y := X) (by norm_num) (by linarith) h2
    linarith
  refine ⟨hz, ?_⟩
  rcases le_total ζ X with c | c
  · rw [abs_of_nonneg (by linarith)]
    exact diff_le (by linarith) c (by rw [hζ]; exact hle)
  · rw [abs_of_nonpos (by linarith)]
    have h2 : PhiR (-X) ≤ (1 + 7.2e-6) * PhiR (-ζ) := by rw [hζ]; linarith [h.2]
    have h3 := diff_le (x := X) (by linarith) c h2
    have h4 : ζ - X ≤ 7.2e-6 := by nlinarith
    nlinarith

/-! ### Halley steps in general -/

/-- the value of a step -/
theorem halleyPhi_fin {u y w : ℝ} (hw : w = (PhiR y - u) * Real.sqrt (2 * Real.pi) * Real.exp (y * y * 0.5)) (h : 1 + y * w * 0.5 ≠ 0) :
    halleyPhi (fin u) (fin y) = fin (y - w / (1 + y * w * 0.5)) := by
  unfold halleyPhi
  simp only [Phi_fin, fin_sub, sqrt2pi, fin_mul, exp_fin, ofNat_fin, fin_add, Nat.cast_one]
  rw [← hw, fin_div h, fin_sub]

theorem halleyPhi_neg (u y : ℝ) : halleyPhi (fin (1 - u)) (fin (-y)) = -halleyPhi (fin u) (fin y) := by
  unfold halleyPhi
  simp only [Phi_fin, fin_sub, sqrt2pi, fin_mul, exp_fin, ofNat_fin, fin_add, Nat.cast_one]
  set w := (PhiR y - u) * Real.sqrt (2 * Real.pi) * Real.exp (y * y * 0.5) with hw
  have e : (PhiR (-y) - (1 - u)) * Real.sqrt (2 * Real.pi) * Real.exp (-y * -y * 0.5) = -w := by
    rw [hw, PhiR_neg, neg_mul_neg]; ring
  rw [e, neg_mul_neg]
  by_cases h : 1 + y * w * 0.5 = 0
  · have hw0 : w ≠ 0 := by rintro h'; rw [h'] at h; norm_num at h
    rw [fin_div', fin_div', if_pos h, if_pos h]
    rcases lt_or_gt_of_ne hw0 with c | c
    · rw [infSign_neg c, infSign_pos (by linarith)]; rfl
    · rw [infSign_pos c, infSign_neg (by linarith)]; rfl
  · rw [fin_div h, fin_div h, fin_sub, fin_sub, neg_fin, neg_div]
    congr 1; ring

/-- from a guess far below, a step does not come back -/
theorem halley_far {u X : ℝ} (hu : 0 ≤ u) (hX : 1 ≤ X) : ∃ y', halleyPhi (fin u) (fin (-X)) = fin y' ∧ y' ≤ -X + 2 / X := by
  set w := (PhiR (-X) - u) * Real.sqrt (2 * Real.pi) * Real.exp (-X * -X * 0.5) with hw
  have hX0 : 0 < X := by linarith
  have hs : (0 : ℝ) < Real.sqrt (2 * Real.pi) := by positivity
  have hwX : w ≤ 1 / X := by
    have hm := mills_le hX0
    rw [phiR] at hm
    have he : Real.exp (-X * X / 2) * Real.exp (-X * -X * 0.5) = 1 := by
      rw [← Real.exp_add, show -X * X / 2 + -X * -X * 0.5 = 0 by ring, Real.exp_zero]
    have hpos : 0 < Real.sqrt (2 * Real.pi) * Real.exp (-X * -X * 0.5) := mul_pos hs (Real.exp_pos _)
    have h1 : w ≤ PhiR (-X) * (Real.sqrt (2 * Real.pi) * Real.exp (-X * -X * 0.5)) := by
      rw [hw, mul_assoc]; gcongr; linarith
    rw [le_div_iff₀ hX0]
    calc w * X ≤ PhiR (-X) * (Real.sqrt (2 * Real.pi) * Real.exp (-X * -X * 0.5)) * X := by gcongr
      _ = X * PhiR (-X) * (Real.sqrt (2 * Real.pi) * Real.exp (-X * -X * 0.5)) := by ring
      _ ≤ 1 / Real.sqrt (2 * Real.pi) * Real.exp (-X * X / 2) * (Real.sqrt (2 * Real.pi) * Real.exp (-X * -X * 0.5)) := by gcongr
      _ = Real.exp (-X * X / 2) * Real.exp (-X * -X * 0.5) := by field_simp
      _ = 1 := he
  have hwX' : w * X ≤ 1 := (le_div_iff₀ hX0).1 hwX
  have hden : 0 < 1 + -X * w * 0.5 := by linarith
  refine ⟨_, halleyPhi_fin hw hden.ne', ?_⟩
  have : -(w / (1 + -X * w * 0.5)) ≤ 2 / X := by
    rw [← neg_div, div_le_div_iff₀ hden hX0]
    nlinarith
  linarith

/-! ### Both outer regions -/

/-- The approximation and the results of the first and second step, for a probability `t` of the lower outer region -/
structure Result (t y y' y'' : ℝ) : Prop where
  approx : (2 : ℝ)⁻¹ ^ 1074 ≤ t → |PhiR y - t| ≤ 8e-6 * t
  step : halleyPhi (fin t) (fin y) = fin y'
  step' : halleyPhi (fin t) (fin y') = fin y''
  acc : (2 : ℝ)⁻¹ ^ 1074 ≤ t → |PhiR y' - t| ≤ 1e-15 * t
  acc' : (2 : ℝ)⁻¹ ^ 1074 ≤ t → |PhiR y'' - t| ≤ 1e-45 * t
  tiny : t < (2 : ℝ)⁻¹ ^ 1074 → |PhiR y' - t| ≤ 1e-100 ∧ |PhiR y'' - t| ≤ 1e-100

theorem exp_tiny {x : ℝ} (h : x ≤ -25) : PhiR x ≤ 1e-100 := by
  have h1 : PhiR x ≤ PhiR (-25) := strictMono_PhiR.monotone h
  refine h1.trans ((PhiR_neg_le_exp (by norm_num)).trans ?_)
  have h2 : Real.exp (-25 ^ 2 / 2) ≤ Real.exp (-1) ^ 300 := by
    rw [← Real.exp_nat_mul]
    exact Real.exp_le_exp.2 (by norm_num)
  refine h2.trans ?_
  have h3 : Real.exp (-1) ≤ 2 / 5 := by
    rw [Real.exp_neg]
    have := Real.exp_one_gt_d9
    rw [inv_le_comm₀ (Real.exp_pos 1) (by norm_num)]
    linarith
  calc Real.exp (-1) ^ 300 ≤ (2 / 5) ^ 300 := pow_le_pow_left₀ (Real.exp_pos _).le h3 _
    _ = ((2 / 5 : ℝ) ^ 3) ^ 100 := by rw [← pow_mul]
    _ ≤ ((1 : ℝ) / 10) ^ 100 := pow_le_pow_left₀ (by norm_num) (by norm_num) _
    _ = 1e-100 := by norm_num

theorem tail_result {t : ℝ} (h0 : 0 < t) (h1 : t ≤ 0.02425) : ∃ y' y'', Result t (-AT (qT t)) y' y'' := by
  by_cases hc : (2 : ℝ)⁻¹ ^ 1074 ≤ t
  · obtain ⟨z, hz⟩ := exists_PhiR h0 (by linarith)
    have hz' : PhiR (-(-z)) = t := by rw [neg_neg]; exact hz
    obtain ⟨g1, g2⟩ := quantile_tail hc h1 hz'
    have habs : |z| = -z := abs_of_nonpos (by linarith)
    have hd : -z * |-AT (qT t) - z| ≤ 7.3e-6 := by
      rw [show -AT (qT t) - z = -(AT (qT t) - -z) by ring, abs_neg]; exact g2
    obtain ⟨y', s1, b1⟩ := halley_tail habs g1 hd (by norm_num)
    have b1' : -z * |y' - z| ≤ 4.7e-16 := b1.trans (by norm_num)
    obtain ⟨y'', s2, b2⟩ := halley_tail habs g1 b1' (by norm_num)
    have b2' : -z * |y'' - z| ≤ 1.3e-46 := b2.trans (by norm_num)
    rw [hz] at s1 s2
    refine ⟨y', y'', fun _ => ?_, s1, s2, fun _ => ?_, fun _ => ?_, fun h => absurd hc (not_le.2 h)⟩
    · have := tail (qT_ge h0 h1) (qT_le hc)
      rw [exp_qT h0 (by linarith)] at this
      linarith
    · have := value_tail habs g1 b1' (by norm_num)
      rw [neg_neg, hz] at this
      linarith
    · have := value_tail habs g1 b2' (by norm_num)
      rw [neg_neg, hz] at this
      linarith
  · push Not at hc
    have hX := AT_tiny (qT_tiny h0 hc)
    obtain ⟨y', s1, b1⟩ := halley_far (u := t) (X := AT (qT t)) h0.le (by linarith)
    have c1 : y' ≤ -29 := by
      have : 2 / AT (qT t) ≤ 1 := by rw [div_le_one (by linarith)]; linarith
      linarith
    obtain ⟨y'', s2, b2⟩ := halley_far (u := t) (X := -y') h0.le (by linarith)
    rw [neg_neg] at s2 b2
    have c2 : y'' ≤ -28 := by
      have : 2 / -y' ≤ 1 := by rw [div_le_one (by linarith)]; linarith
      linarith
    have ht : t ≤ 1e-100 := by
      refine hc.le.trans ?_
      calc (2 : ℝ)⁻¹ ^ 1074 ≤ (2 : ℝ)⁻¹ ^ 1000 := pow_le_pow_of_le_one (by norm_num) (by norm_num) (by norm_num)
        _ = ((2 : ℝ)⁻¹ ^ 10) ^ 100 := by rw [← pow_mul]
        _ ≤ ((1 : ℝ) / 10) ^ 100 := pow_le_pow_left₀ (by norm_num) (by norm_num) _
        _ = 1e-100 := by norm_num
    have key : ∀ y : ℝ, y ≤ -28 → |PhiR y - t| ≤ 1e-100 := by
      intro y hy
      have := exp_tiny (x := y) (by linarith)
      have := PhiR_pos y
      rw [abs_le]; constructor <;> linarith
    exact ⟨y', y'', fun h => absurd h (not_le.2 hc), s1, s2, fun h => absurd h (not_le.2 hc), fun h => absurd h (not_le.2 hc),
      fun _ => ⟨key _ (by linarith), key _ c2⟩⟩

/-! ### The central region -/

theorem phiR_two : 0.05 ≤ phiR 2 := by
  obtain ⟨_, s2⟩ := sqrt2pi_bounds
  have h1 := Real.exp_one_lt_d9
  have hs : (0 : ℝ) < Real.sqrt (2 * Real.pi) := by positivity
  have he : Real.exp 2 ≤ 7.4 := by
    rw [show (2 : ℝ) = 1 + 1 by norm_num, Real.exp_add]
    have := Real.exp_pos 1
    nlinarith
  rw [phiR, show (-2 : ℝ) * 2 / 2 = -2 by norm_num, Real.exp_neg, one_div, ← mul_inv]
  rw [le_inv_comm₀ (by norm_num) (mul_pos hs (Real.exp_pos _))]
  calc Real.sqrt (2 * Real.pi) * Real.exp 2 ≤ 2.50662827464 * 7.4 := by gcongr
    _ ≤ 0.05⁻¹ := by norm_num

/-- growth of the distribution function between -2 and 2 -/
theorem PhiR_growth {x y : ℝ} (hx : -2 ≤ x) (hxy : x ≤ y) (hy : y ≤ 2) : 0.05 * (y - x) ≤ PhiR y - PhiR x := by
  have := Convex.mul_sub_le_image_sub_of_le_deriv (convex_Icc (-2 : ℝ) 2) continuous_PhiR.continuousOn
    (fun t _ => (hasDerivAt_PhiR t).differentiableAt.differentiableWithinAt) (C := 0.05) (fun t ht => by
      rw [interior_Icc] at ht
      rw [(hasDerivAt_PhiR t).deriv]
      refine phiR_two.trans (phiR_le_of_abs ?_)
      rw [abs_of_pos (show (0 : ℝ) < 2 by norm_num), abs_le]
      exact ⟨ht.1.le, ht.2.le⟩) x ⟨hx, hxy.trans hy⟩ y ⟨hx.trans hxy, hy⟩ hxy
  exact this

theorem PhiR_lip (x y : ℝ) : |PhiR x - PhiR y| ≤ |x - y| := by
  have := Convex.norm_image_sub_le_of_norm_hasDerivWithin_le (f := PhiR) (s := univ) (x := y) (y := x) (C := 1)
    (fun t _ => (hasDerivAt_PhiR t).hasDerivWithinAt) (fun t _ => by
      rw [Real.norm_of_nonneg (phiR_pos t).le]; exact phiR_le_one t) convex_univ (mem_univ _) (mem_univ _)
  rwa [one_mul, Real.norm_eq_abs, Real.norm_eq_abs] at this

theorem quantile_centre {u z : ℝ} (h0 : 0.02424997 ≤ u) (h1 : u ≤ 1 - 0.02424997) (hz : PhiR z = u) :
    |z| ≤ 2 ∧ |AC (u - 1 / 2) - z| ≤ 1.2e-6 := by
  have hq : |u - 1 / 2| ≤ 0.47575003 := abs_le.2 ⟨by linarith, by linarith⟩
  have hc := centre hq
  rw [sub_add_cancel, ← hz] at hc
  have hy := abs_le.1 (AC_le hq)
  rw [← hz] at hy
  set y := AC (PhiR z - 1 / 2)
  rw [abs_le] at hc
  rw [← hz]
  have hzz : |z| ≤ 2 := by
    rw [abs_le]
    constructor
    · by_contra h
      push Not at h
      have a1 : PhiR z ≤ PhiR (-2) := (strictMono_PhiR h).le
      have a2 := PhiR_growth (x := -2) (y := -1.98) le_rfl (by norm_num) (by norm_num)
      have a3 : PhiR (-1.98) ≤ PhiR y := strictMono_PhiR.monotone hy.1
      norm_num at a2 hc; linarith
    · by_contra h
      push Not at h
      have a1 : PhiR 2 ≤ PhiR z := (strictMono_PhiR h).le
      have a2 := PhiR_growth (x := 1.98) (y := 2) (by norm_num) (by norm_num) (by norm_num)
      have a3 : PhiR y ≤ PhiR 1.98 := strictMono_PhiR.monotone hy.2
      norm_num at a2 hc; linarith
  refine ⟨hzz, ?_⟩
  have hz2 := abs_le.1 hzz
  rcases le_total z y with c | c
  · rw [abs_of_nonneg (by linarith)]
    have := PhiR_growth hz2.1 c (by linarith [hy.2])
    norm_num at hc this ⊢; linarith
  · rw [abs_of_nonpos (by linarith)]
    have := PhiR_growth (by linarith [hy.1]) c hz2.2
    norm_num at hc this ⊢; linarith

theorem centre_result {u : ℝ} (h0 : 0.02425 ≤ u) (h1 : u ≤ 1 - 0.02425) :
    |PhiR (AC (u - 1 / 2)) - u| ≤ 6e-8 ∧ ∃ y' y'', halleyPhi (fin u) (fin (AC (u - 1 / 2))) = fin y' ∧ halleyPhi (fin u) (fin y') = fin y'' ∧
      |PhiR y' - u| ≤ 2e-17 ∧ |PhiR y'' - u| ≤ 1e-47 := by
  have hq : |u - 1 / 2| ≤ 0.47575003 := abs_le.2 ⟨by linarith, by linarith⟩
  have hc := centre hq
  rw [sub_add_cancel] at hc
  refine ⟨hc, ?_⟩
  obtain ⟨z, hz⟩ := exists_PhiR (u := u) (by linarith) (by linarith)
  obtain ⟨g1, g2⟩ := quantile_centre (by linarith) (by linarith) hz
  have hy := AC_le hq
  set y := AC (u - 1 / 2)
  obtain ⟨y', s1, b1⟩ := halleyPhi_bound (z := z) (y := y) (M := 3) (by linarith) (by linarith) (by linarith)
  have b1' : |y' - z| ≤ 1.5e-17 := by
    refine b1.trans ?_
    calc (3 / 2 + 3 / 4 * 3 ^ 2 : ℝ) * |y - z| ^ 3 ≤ (3 / 2 + 3 / 4 * 3 ^ 2) * 1.2e-6 ^ 3 := by gcongr
      _ ≤ 1.5e-17 := by norm_num
  have hy' : |y'| ≤ 3 := by
    have := abs_add_le (y' - z) z
    rw [sub_add_cancel] at this
    linarith
  obtain ⟨y'', s2, b2⟩ := halleyPhi_bound (z := z) (y := y') (M := 3) (by linarith) hy' (by linarith)
  have b2' : |y'' - z| ≤ 1e-47 := by
    refine b2.trans ?_
    calc (3 / 2 + 3 / 4 * 3 ^ 2 : ℝ) * |y' - z| ^ 3 ≤ (3 / 2 + 3 / 4 * 3 ^ 2) * 1.5e-17 ^ 3 := by gcongr
      _ ≤ 1e-47 := by norm_num
  rw [hz] at s1 s2
  refine ⟨y', y'', s1, s2, ?_, ?_⟩
  · rw [← hz]; exact (PhiR_lip _ _).trans (b1'.trans (by norm_num))
  · rw [← hz]; exact (PhiR_lip _ _).trans b2'

/-! ### Everything together -/

/-- the error allowed after one step, and after two -/
noncomputable def tol (wide : Bool) : ℝ := if wide then 1e-45 else 1e-15

theorem tol_pos (wide : Bool) : 0 < tol wide := by unfold tol; split_ifs <;> norm_num
theorem tiny_le_tol (wide : Bool) : 1e-100 ≤ tol wide := by unfold tol; split_ifs <;> norm_num

theorem refine_fin {wide : Bool} {step : XR → XR} {y y' y'' : ℝ} (h1 : step (fin y) = fin y') (h2 : step (fin y') = fin y'') :
    refine wide step (fin y) = fin (if wide then y'' else y') := by
  have hf : ∀ y, isFinite (fin y) := fun _ => trivial
  cases wide
  · simp only [refine, if_pos (hf y), h1, Bool.false_eq_true, false_and, if_false]
  · simp only [refine, if_pos (hf y), h1, hf y', and_self, if_true, h2]

/-- the approximation and the result, with both steps, for every probability -/
theorem main {u : ℝ} (h0 : 0 < u) (h1 : u < 1) : ∃ y y' y'', invPhiApprox (fin u) = fin y ∧ halleyPhi (fin u) (fin y) = fin y' ∧
    halleyPhi (fin u) (fin y') = fin y'' ∧ ((2 : ℝ)⁻¹ ^ 1074 ≤ u → u ≤ 1 - (2 : ℝ)⁻¹ ^ 1074 →
      |PhiR y - u| ≤ 8e-6 * min u (1 - u) ∧ ∀ wide : Bool, |PhiR (if wide then y'' else y') - u| ≤ tol wide * min u (1 - u)) ∧
    ∀ wide : Bool, |PhiR (if wide then y'' else y') - u| ≤ tol wide := by
  have aux : ∀ {t y' y'' : ℝ}, 0 < t → t < 1 → Result t (-AT (qT t)) y' y'' → ∀ wide : Bool, |PhiR (if wide then y'' else y') - t| ≤ tol wide := by
    intro t y' y'' ht ht1 r wide
    by_cases hc : (2 : ℝ)⁻¹ ^ 1074 ≤ t
    · have a := r.acc hc
      have b := r.acc' hc
      cases wide
      · have : tol false = 1e-15 := rfl
        rw [this]; simp only [Bool.false_eq_true, if_false]; nlinarith
      · have : tol true = 1e-45 := rfl
        rw [this]; simp only [if_true]; nlinarith
    · obtain ⟨a, b⟩ := r.tiny (not_le.1 hc)
      refine le_trans ?_ (tiny_le_tol wide)
      cases wide
      · exact a
      · exact b
  rcases lt_or_ge u 0.02425 with c | c
  · obtain ⟨y', y'', r⟩ := tail_result h0 c.le
    refine ⟨_, y', y'', approx_lower h0 c, r.step, r.step', fun a b => ?_, aux h0 h1 r⟩
    rw [min_eq_left (by linarith)]
    refine ⟨r.approx a, fun wide => ?_⟩
    cases wide
    · exact r.acc a
    · exact r.acc' a
  rcases lt_or_ge u (1 - 0.02425) with d | d
  · obtain ⟨e, y', y'', s1, s2, b1, b2⟩ := centre_result c d.le
    have hm : 0.02425 ≤ min u (1 - u) := le_min c (by linarith)
    have hw : ∀ wide : Bool, |PhiR (if wide then y'' else y') - u| ≤ tol wide * 0.02425 := by
      intro wide
      cases wide
      · have : tol false = 1e-15 := rfl
        rw [this]; exact b1.trans (by norm_num)
      · have : tol true = 1e-45 := rfl
        rw [this]; exact b2.trans (by norm_num)
    refine ⟨_, y', y'', approx_centre c d, s1, s2, fun _ _ => ⟨?_, fun wide => ?_⟩, fun wide => ?_⟩
    · exact e.trans (by linarith)
    · exact (hw wide).trans (mul_le_mul_of_nonneg_left hm (tol_pos wide).le)
    · have := tol_pos wide
      exact (hw wide).trans (by linarith)
  · obtain ⟨t, rfl⟩ : ∃ t, u = 1 - t := ⟨1 - u, by ring⟩
    have ht : 0 < t := by linarith
    have ht1 : t ≤ 0.02425 := by linarith
    obtain ⟨y', y'', r⟩ := tail_result ht ht1
    have s1 := halleyPhi_neg t (-AT (qT t))
    rw [r.step, neg_neg, neg_fin] at s1
    have s2 := halleyPhi_neg t y'
    rw [r.step', neg_fin] at s2
    have e : ∀ y : ℝ, |PhiR (-y) - (1 - t)| = |PhiR y - t| := by
      intro y
      rw [PhiR_neg, show 1 - PhiR y - (1 - t) = -(PhiR y - t) by ring, abs_neg]
    have e' : ∀ (wide : Bool), |PhiR (if wide then -y'' else -y') - (1 - t)| = |PhiR (if wide then y'' else y') - t| := by
      intro wide; cases wide
      · exact e _
      · exact e _
    refine ⟨_, _, _, approx_upper ht ht1, s1, s2, fun a b => ?_, fun wide => ?_⟩
    · have hb : (2 : ℝ)⁻¹ ^ 1074 ≤ t := by linarith
      rw [min_eq_right (by linarith), sub_sub_cancel]
      refine ⟨?_, fun wide => ?_⟩
      · rw [← neg_neg (AT (qT t)), e]; exact r.approx hb
      · rw [e']
        cases wide
        · exact r.acc hb
        · exact r.acc' hb
    · rw [e']; exact aux ht (by linarith) r wide

/-! ### inv_erf and inv_erfc -/

theorem sqrtPi_eq : Real.sqrt (2 * Real.pi) = Real.sqrt 2 * Real.sqrt Real.pi := Real.sqrt_mul (by norm_num) _

theorem halleyErf_eq {u y y' : ℝ} (h : halleyPhi (fin u) (fin y) = fin y') :
    halleyErf (fin (2 * u - 1)) (fin (y / Real.sqrt 2)) = fin (y' / Real.sqrt 2) ∧
    halleyErfc (fin (2 * u)) (fin (-y / Real.sqrt 2)) = fin (-y' / Real.sqrt 2) := by
  have h2 : Real.sqrt 2 * Real.sqrt 2 = 2 := Real.mul_self_sqrt (by norm_num)
  have h0 : (0 : ℝ) < Real.sqrt 2 := by positivity
  have hd : ∀ x y : ℝ, x / Real.sqrt 2 * (y / Real.sqrt 2) = x * y * 0.5 := by
    intro x y; rw [div_mul_div_comm, h2]; ring
  set w := (PhiR y - u) * Real.sqrt (2 * Real.pi) * Real.exp (y * y * 0.5) with hw
  have e0 : y - w / (1 + y * w * 0.5) = y' ∧ 1 + y * w * 0.5 ≠ 0 := by
    unfold halleyPhi at h
    simp only [Phi_fin, fin_sub, sqrt2pi, fin_mul, exp_fin, ofNat_fin, fin_add, Nat.cast_one] at h
    rw [← hw] at h
    by_cases hc : 1 + y * w * 0.5 = 0
    · have hw0 : w ≠ 0 := by rintro h'; rw [h'] at hc; norm_num at hc
      rw [fin_div', if_pos hc] at h
      rcases lt_or_gt_of_ne hw0 with c | c
      · rw [infSign_neg c] at h; cases h
      · rw [infSign_pos c] at h; cases h
    · rw [fin_div hc, fin_sub] at h
      exact ⟨(fin_inj _ _).1 h, hc⟩
  have hE : erfR (y / Real.sqrt 2) = 2 * PhiR y - 1 := by rw [PhiR]; ring
  have hE' : erfR (-y / Real.sqrt 2) = 1 - 2 * PhiR y := by rw [neg_div, erfR_neg, hE]; ring
  have hsq : Real.sqrt (2 * Real.pi) = Real.sqrt 2 * Real.sqrt Real.pi := sqrtPi_eq
  have e1 : (2 * PhiR y - 1 - (2 * u - 1)) * (Real.sqrt Real.pi / 2) * Real.exp (y * y * 0.5) = w / Real.sqrt 2 := by
    rw [hw, hsq]; field_simp; ring
  constructor
  · unfold halleyErf
    simp only [erf_fin, fin_sub, sqrtPiOver2, fin_mul, exp_fin, ofNat_fin, fin_add, Nat.cast_one, hE]
    rw [hd, e1, hd, fin_div e0.2, fin_sub, ← e0.1]
    congr 1
    field_simp
  · unfold halleyErfc
    simp only [erfc_fin, fin_sub, sqrtPiOver2, neg_fin, fin_mul, exp_fin, ofNat_fin, fin_add, Nat.cast_one, hE']
    rw [hd, neg_mul_neg, show -(1 - (1 - 2 * PhiR y) - 2 * u) * (Real.sqrt Real.pi / 2) * Real.exp (y * y * 0.5) = -w / Real.sqrt 2 by
      rw [neg_div, ← e1]; ring, hd, neg_mul_neg, fin_div e0.2, fin_sub, ← e0.1]
    congr 1
    field_simp
    ring

end Trng.Acklam
