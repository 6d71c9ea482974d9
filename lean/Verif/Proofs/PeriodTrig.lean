import Verif.Proofs.PeriodPower
import Mathlib.Analysis.SpecialFunctions.Trigonometric.ArctanDeriv
import Mathlib.Analysis.Real.Pi.Bounds

/-! Samples of the Cauchy, tent, uniform and log-normal distributions. -/
namespace Trng.PeriodLaw
open XR Machine Spec Rounded Inverse

variable {M : Machine} {d : ℝ}

/-! ### Cauchy distribution -/

theorem arctan_lip (p q : ℝ) : |Real.arctan p - Real.arctan q| ≤ |p - q| := by
  have := lip Real.hasDerivAt_arctan' (C := 1) (fun x => ?_) p q
  · rwa [one_mul] at this
  · rw [abs_of_pos (by positivity)]
    exact inv_le_one_of_one_le₀ (by nlinarith [sq_nonneg x])

/-- A relative error of the argument of arctan. -/
theorem arctan_rel {a b ρ : ℝ} (hρ1 : 0 ≤ ρ) (h : |b - a| ≤ ρ * |a|) (hρ : ρ ≤ 1 / 2) : |Real.arctan b - Real.arctan a| ≤ ρ := by
  have key : ∀ x ∈ Set.uIcc a b, |(1 + x ^ 2)⁻¹| ≤ 1 / (1 + a ^ 2 / 4) := by
    intro x hx
    have h1 : |x - a| ≤ |b - a| := Set.abs_sub_left_of_mem_uIcc hx
    have h2 : |a| / 2 ≤ |x| := by
      have := abs_sub_abs_le_abs_sub a x
      rw [abs_sub_comm a x] at this
      have h3 : ρ * |a| ≤ 1 / 2 * |a| := mul_le_mul_of_nonneg_right hρ (abs_nonneg _)
      linarith
    have h4 : a ^ 2 / 4 ≤ x ^ 2 := by
      rw [← sq_abs a, ← sq_abs x]
      nlinarith [abs_nonneg a, abs_nonneg x]
    rw [abs_of_pos (by positivity), ← one_div]
    exact one_div_le_one_div_of_le (by positivity) (by linarith)
  have m := Convex.norm_image_sub_le_of_norm_hasDerivWithin_le (s := Set.uIcc a b) (fun x _ => (Real.hasDerivAt_arctan' x).hasDerivWithinAt) key (convex_uIcc a b)
    Set.left_mem_uIcc Set.right_mem_uIcc
  rw [Real.norm_eq_abs, Real.norm_eq_abs] at m
  refine m.trans ?_
  rw [one_div_mul_eq_div, div_le_iff₀ (by positivity)]
  refine h.trans (mul_le_mul_of_nonneg_left ?_ hρ1)
  rw [← sq_abs a]
  nlinarith [sq_nonneg (|a| / 2 - 1)]

theorem split {x a b : ℝ} (ha : 0 ≤ a) (hb : 0 ≤ b) (h : |x| ≤ a + b) : ∃ y, |y| ≤ a ∧ |x - y| ≤ b := by
  obtain ⟨h1, h2⟩ := abs_le.1 h
  rcases le_total x 0 with hx | hx
  · rcases le_total (-a) x with h3 | h3
    · exact ⟨x, abs_le.2 ⟨h3, by linarith⟩, by simpa using hb⟩
    · exact ⟨-a, by rw [abs_neg, abs_of_nonneg ha], abs_le.2 ⟨by linarith, by linarith⟩⟩
  · rcases le_total x a with h3 | h3
    · exact ⟨x, abs_le.2 ⟨by linarith, h3⟩, by simpa using hb⟩
    · exact ⟨a, by rw [abs_of_nonneg ha], abs_le.2 ⟨by linarith, by linarith⟩⟩

theorem pi_close : 1.2e-16 ≤ Real.pi - piDouble ∧ Real.pi - piDouble ≤ 1.3e-16 := by
  have h1 := Real.pi_gt_d20
  have h2 := Real.pi_lt_d20
  unfold piDouble
  norm_num at h1 h2 ⊢
  constructor <;> linarith

theorem sin_ge {t : ℝ} (h0 : 6e-16 ≤ t) (h1 : t ≤ piDouble) : 7e-17 ≤ Real.sin t := by
  obtain ⟨p1, p2⟩ := pi_close
  have hp := Real.pi_lt_d2
  have hp0 := Real.pi_pos
  have key : ∀ x : ℝ, 1.2e-16 ≤ x → x ≤ Real.pi / 2 → 7e-17 ≤ Real.sin x := by
    intro x hx hx2
    have h := Real.mul_le_sin (by linarith) hx2
    refine le_trans ?_ h
    rw [div_mul_eq_mul_div, le_div_iff₀ hp0]
    linarith
  rcases le_total t (Real.pi / 2) with h | h
  · exact key t (by linarith) h
  · rw [← Real.sin_pi_sub]
    exact key _ (by linarith) (by linarith)

theorem cauchy_quot (D : DoubleWithin M d) (P : FunctionsWithin M d) (hd : d ≤ 9e-16) {theta t : ℝ}
    (t0 : 1e-100 ≤ theta) (t1 : theta ≤ 1e100) (hs0 : 7e-17 ≤ Real.sin t) :
    ∃ q, M.div (M.mul (fin theta) (M.cos (fin t))) (M.sin (fin t)) = fin q ∧
      |q / theta - Real.cos t / Real.sin t| ≤ 2.4e-15 * |Real.cos t / Real.sin t| + 1e-89 ∧ |q / theta| ≤ 1e18 := by
  have ht : 0 < theta := lt_of_lt_of_le (by norm_num) t0
  have htn2 : tiny ≤ 1e-120 * 1e-100 := by
    have := tiny_scale (theta := 1e-200) le_rfl
    exact this.trans (by norm_num)
  have htn3 : tiny ≤ 1e-120 * theta := htn2.trans (mul_le_mul_of_nonneg_left t0 (by norm_num))
  have hs1 := Real.sin_le_one t
  have hc1 := Real.abs_cos_le_one t
  -- sine and cosine
  obtain ⟨s, es, hs⟩ := P.sin t
  obtain ⟨k, ek, hk⟩ := P.cos t
  change _ ≤ _ + tiny at hs hk
  rw [abs_of_pos (by linarith : 0 < Real.sin t)] at hs
  have hs' : |s - Real.sin t| ≤ 1e-15 * Real.sin t := by
    have := mul_le_mul_of_nonneg_right hd (by linarith : 0 ≤ Real.sin t)
    have : tiny ≤ 1e-60 := htn2.trans (by norm_num)
    linarith
  have hk' : |k - Real.cos t| ≤ 9e-16 * |Real.cos t| + 1e-120 := by
    have := mul_le_mul_of_nonneg_right hd (abs_nonneg (Real.cos t))
    have : tiny ≤ 1e-120 := htn2.trans (by norm_num)
    linarith
  generalize hS : Real.sin t = S at *
  generalize hC : Real.cos t = C at *
  obtain ⟨s1, s2⟩ := abs_le.1 hs'
  have hsp : 0 < s := by linarith
  have hkb : |k| ≤ (1 + 9e-16) * |C| + 1e-120 := by
    have := abs_add_le (k - C) C
    rw [sub_add_cancel] at this
    linarith
  have hkb2 : |k| ≤ 2 := by linarith
  -- the product with `theta`
  have hm0 : |theta * k| = theta * |k| := by rw [abs_mul, abs_of_pos ht]
  have hmb : theta * |k| ≤ theta * 2 := mul_le_mul_of_nonneg_left hkb2 ht.le
  obtain ⟨m, em, hm⟩ := rnd_err D (x := theta * k) (big_le (y := 1e100 * 2) (by rw [hm0]; linarith) (by norm_num))
  rw [hm0] at hm
  have ha : |m / theta - C| ≤ 1.1e-15 * |C| + 1e-110 := by
    have e : m / theta - C = (m - theta * k) / theta + (k - C) := by field_simp; ring
    have h2 : |(m - theta * k) / theta| ≤ 1.2e-16 * |k| + 1e-120 := by
      rw [abs_div, abs_of_pos ht, div_le_iff₀ ht]; linarith
    rw [e]
    refine (abs_add_le _ _).trans ?_
    linarith [abs_nonneg C]
  generalize haa : m / theta = a at *
  have hma : m = theta * a := by rw [← haa]; field_simp
  have hab : |a| ≤ 2 := by
    have := abs_add_le (a - C) C
    rw [sub_add_cancel] at this
    linarith
  -- the quotient
  have hSs : |a / s - C / S| ≤ 2.2e-15 * |C / S| + 1e-90 := by
    have e : a / s - C / S = ((a - C) * S + C * (S - s)) / (s * S) := by field_simp; ring
    have hS0 : 0 < S := by linarith
    have hz : 0 < s * S := mul_pos hsp hS0
    rw [e, abs_div, abs_div, abs_of_pos hz, abs_of_pos hS0, div_le_iff₀ hz]
    have h2 : |(a - C) * S + C * (S - s)| ≤ (1.1e-15 * |C| + 1e-110) * S + |C| * (1e-15 * S) := by
      refine (abs_add_le _ _).trans ?_
      rw [abs_mul, abs_mul, abs_of_pos hS0, abs_sub_comm S s]
      exact add_le_add (mul_le_mul_of_nonneg_right ha hS0.le) (mul_le_mul_of_nonneg_left hs' (abs_nonneg _))
    refine h2.trans ?_
    have e2 : (2.2e-15 * (|C| / S) + 1e-90) * (s * S) = 2.2e-15 * |C| * s + 1e-90 * s * S := by field_simp
    rw [e2]
    have h3 : 2.1e-15 * (|C| * S) ≤ 2.2e-15 * (|C| * s) := by
      have : |C| * (2.1e-15 * S) ≤ |C| * (2.2e-15 * s) := mul_le_mul_of_nonneg_left (by linarith) (abs_nonneg C)
      linarith
    have h4 : 1e-110 * S ≤ 1e-90 * s * S := mul_le_mul_of_nonneg_right (by linarith) hS0.le
    linarith
  have hQb : |a / s| ≤ 1e17 := by
    rw [abs_div, abs_of_pos hsp, div_le_iff₀ hsp]
    linarith
  have hmq : |m / s| = theta * |a / s| := by rw [hma, mul_div_assoc, abs_mul, abs_of_pos ht]
  obtain ⟨q, eq, hq⟩ := rnd_err D (x := m / s) (big_le (y := 1e100 * 1e17) (by
    rw [hmq]; exact mul_le_mul t1 hQb (abs_nonneg _) (by norm_num)) (by norm_num))
  rw [hmq] at hq
  have hQ : |q / theta - a / s| ≤ 1.2e-16 * |a / s| + 1e-120 := by
    rw [show q / theta - a / s = (q - m / s) / theta by rw [hma]; field_simp, abs_div, abs_of_pos ht, div_le_iff₀ ht]
    linarith
  generalize hQQ : q / theta = Q at *
  have hqQ : q = theta * Q := by rw [← hQQ]; field_simp
  generalize hAA : a / s = A at *
  generalize hCS : C / S = Z at *
  have hA1 : |A| ≤ (1 + 2.2e-15) * |Z| + 1e-90 := by
    have := abs_add_le (A - Z) Z
    rw [sub_add_cancel] at this
    linarith
  have hQZ : |Q - Z| ≤ 2.4e-15 * |Z| + 1e-89 := by
    have := abs_add_le (Q - A) (A - Z)
    rw [sub_add_sub_cancel] at this
    linarith [abs_nonneg Z]
  have hQ1 : |Q| ≤ 1e18 := by
    have := abs_add_le (Q - A) A
    rw [sub_add_cancel] at this
    linarith
  exact ⟨q, by rw [ek, es, Machine.mul_fin, em, Machine.div_fin _ hsp.ne', eq], by rw [hQQ]; exact hQZ, by rw [hQQ]; exact hQ1⟩

theorem cauchy_value (D : DoubleWithin M d) (P : FunctionsWithin M d) (hd : d ≤ 9e-16) {c theta eta u : ℝ}
    (t0 : 1e-100 ≤ theta) (t1 : theta ≤ 1e100) (he : |eta| ≤ 1e200) (h0 : 2 ^ (-52 : ℤ) ≤ u) (h1 : u < 1) :
    ∃ r, (cauchy M piDouble c (fin theta) (fin eta)).draw (fin u) = fin r ∧ |cauchyLaw theta eta r - u| ≤ 2e-15 + 1.2e-16 * (|eta| / theta) := by
  have ht : 0 < theta := lt_of_lt_of_le (by norm_num) t0
  have hu : 2.2e-16 ≤ u := le_trans (by norm_num) h0
  obtain ⟨p1, p2⟩ := pi_close
  have hpi1 := Real.pi_gt_d2
  have hpi2 := Real.pi_lt_d2
  norm_num at hpi1 hpi2
  have htn := tiny_le
  have htn2 : tiny ≤ 1e-120 * 1e-100 := by
    have := tiny_scale (theta := 1e-200) le_rfl
    exact this.trans (by norm_num)
  have htn3 : tiny ≤ 1e-120 * theta := htn2.trans (mul_le_mul_of_nonneg_left t0 (by norm_num))
  have hpd : 3.13 ≤ piDouble ∧ piDouble ≤ 3.15 := ⟨by linarith, by linarith⟩
  have hx0 : 0 < u * piDouble := mul_pos (by linarith) (by linarith)
  have hx1 : u * piDouble ≤ piDouble := mul_le_of_le_one_left (by linarith) h1.le
  -- the angle
  obtain ⟨t, et, hte⟩ := rnd_err D (x := u * piDouble) (big_le (y := 4) (by rw [abs_of_pos hx0]; linarith) (by norm_num))
  rw [abs_of_pos hx0] at hte
  obtain ⟨te1, te2⟩ := abs_le.1 hte
  have htp : t ≤ piDouble := by
    have R := ieee_rounding (p := 53) (lo := -1074) (hi := 1024) (by norm_num) (by norm_num) (by norm_num)
    have h := R.mono _ _ hx1
    have e := dbl_dyadic (n := 7074237752028440) (e := -51) (by norm_num) (by norm_num) (by norm_num)
    have e' : ieee 53 (-1074) 1024 piDouble = fin piDouble := by
      have : piDouble = ((7074237752028440 : ℕ) : ℝ) * 2 ^ (-51 : ℤ) := by unfold piDouble; norm_num
      rw [this]; exact e
    rw [e', ← D.rnd, et, fin_le] at h
    exact h
  have ht6 : 6e-16 ≤ t := by
    have : 2.2e-16 * 3.13 ≤ u * piDouble := mul_le_mul hu hpd.1 (by norm_num) (by linarith)
    linarith
  clear h0
  have hs0 := sin_ge ht6 htp
  obtain ⟨q, eq, hQZ, hQ1⟩ := cauchy_quot D P hd t0 t1 hs0
  generalize hQQ : q / theta = Q at *
  have hqQ : q = theta * Q := by rw [← hQQ]; field_simp
  generalize hCS : Real.cos t / Real.sin t = Z at *
  have hQ2 : |Q| ≤ (1 + 2.4e-15) * |Z| + 1e-89 := by
    have := abs_add_le (Q - Z) Z
    rw [sub_add_cancel] at this
    linarith
  -- the shift
  have hsh : |eta - q| ≤ |eta| + theta * |Q| := by
    refine (abs_sub _ _).trans ?_
    rw [hqQ, abs_mul, abs_of_pos ht]
  have hsb : theta * |Q| ≤ 1e100 * 1e18 := mul_le_mul t1 hQ1 (abs_nonneg _) (by norm_num)
  obtain ⟨r, er, hr⟩ := rnd_err D (x := eta - q) (big_le (y := 1e200 + 1e100 * 1e18) (hsh.trans (by linarith)) (by norm_num))
  have hz : |(r - eta) / theta - -Q| ≤ 1.2e-16 * (|eta| / theta) + 1.2e-16 * |Q| + 1e-120 := by
    rw [show (r - eta) / theta - -Q = (r - (eta - q)) / theta by rw [hqQ]; field_simp; ring, abs_div, abs_of_pos ht, div_le_iff₀ ht]
    have e2 : (1.2e-16 * (|eta| / theta) + 1.2e-16 * |Q| + 1e-120) * theta = 1.2e-16 * |eta| + 1.2e-16 * (theta * |Q|) + 1e-120 * theta := by field_simp
    rw [e2]
    linarith
  have hzZ : |(r - eta) / theta - -Z| ≤ 2.6e-15 * |-Z| + (1.2e-16 * (|eta| / theta) + 1e-80) := by
    have := abs_add_le ((r - eta) / theta - -Q) (Z - Q)
    rw [show (r - eta) / theta - -Q + (Z - Q) = (r - eta) / theta - -Z by ring, abs_sub_comm Z Q] at this
    rw [abs_neg]
    linarith [abs_nonneg Z]
  refine ⟨r, ?_, ?_⟩
  · show Rounded.cauchyIcdf M piDouble (fin theta) (fin eta) (fin u) = _
    unfold Rounded.cauchyIcdf
    simp only [Machine.mul_fin]
    rw [et, eq, Machine.sub_fin, er]
  · have hE : 0 ≤ |eta| / theta := by positivity
    obtain ⟨y, y1, y2⟩ := split (by positivity) (by linarith) hzZ
    have b1 := arctan_rel (a := -Z) (b := -Z + y) (ρ := 2.6e-15) (by norm_num) (by rw [add_sub_cancel_left]; exact y1) (by norm_num)
    have b2 := arctan_lip ((r - eta) / theta) (-Z + y)
    rw [show (r - eta) / theta - (-Z + y) = (r - eta) / theta - -Z - y by ring] at b2
    have e3 : Real.arctan (-Z) = t - Real.pi / 2 := by
      have : -Z = Real.tan (t - Real.pi / 2) := by
        rw [← hCS, ← neg_sub, Real.tan_neg, Real.tan_pi_div_two_sub, Real.tan_eq_sin_div_cos, inv_div]
      rw [this, Real.arctan_tan (by linarith) (by linarith)]
    rw [e3] at b1
    obtain ⟨c1, c2⟩ := abs_le.1 b1
    obtain ⟨c3, c4⟩ := abs_le.1 (b2.trans y2)
    have e4 : cauchyLaw theta eta r - u = (Real.arctan ((r - eta) / theta) - (t - Real.pi / 2) + (t - u * Real.pi)) / Real.pi := by
      unfold cauchyLaw
      field_simp; ring
    have hup : u * (Real.pi - piDouble) ≤ 1.3e-16 := (mul_le_of_le_one_left (by linarith) h1.le).trans p2
    have hup0 : 0 ≤ u * (Real.pi - piDouble) := mul_nonneg (by linarith) (by linarith)
    have e5 : t - u * Real.pi = (t - u * piDouble) - u * (Real.pi - piDouble) := by ring
    rw [e4, abs_div, abs_of_pos Real.pi_pos, div_le_iff₀ Real.pi_pos, e5]
    have hπ : 3.14 * (2e-15 + 1.2e-16 * (|eta| / theta)) ≤ (2e-15 + 1.2e-16 * (|eta| / theta)) * Real.pi := by
      rw [mul_comm]; exact mul_le_mul_of_nonneg_left (by linarith) (by linarith)
    refine le_trans ?_ hπ
    exact abs_le.2 ⟨by linarith, by linarith⟩

theorem cauchy_law {theta eta : ℝ} (ht : 0 < theta) : Monotone (cauchyLaw theta eta) ∧ ∀ t, 0 ≤ cauchyLaw theta eta t ∧ cauchyLaw theta eta t ≤ 1 := by
  refine ⟨fun s t hst => ?_, fun t => ?_⟩
  · unfold cauchyLaw
    have := Real.arctan_strictMono.monotone (div_le_div_of_nonneg_right (show s - eta ≤ t - eta by linarith) ht.le)
    have := div_le_div_of_nonneg_right this Real.pi_pos.le
    linarith
  · unfold cauchyLaw
    have a := Real.neg_pi_div_two_lt_arctan ((t - eta) / theta)
    have b := Real.arctan_lt_pi_div_two ((t - eta) / theta)
    have a' : -(1 / 2) ≤ Real.arctan ((t - eta) / theta) / Real.pi := by rw [le_div_iff₀ Real.pi_pos]; linarith
    have b' : Real.arctan ((t - eta) / theta) / Real.pi ≤ 1 / 2 := by rw [div_le_iff₀ Real.pi_pos]; linarith
    exact ⟨by linarith, by linarith⟩

/-! ### Uniform distribution -/

theorem clamp_law {a b : ℝ} (h : a < b) (t : ℝ) : uniformLaw a b t = max (min ((t - a) / (b - a)) 1) 0 := by
  have hb : 0 < b - a := by linarith
  unfold uniformLaw
  split_ifs with h1 h2
  · have : (t - a) / (b - a) ≤ 0 := div_nonpos_of_nonpos_of_nonneg (by linarith) hb.le
    rw [min_eq_left (by linarith), max_eq_right this]
  · have : 1 ≤ (t - a) / (b - a) := by rw [le_div_iff₀ hb]; linarith
    rw [min_eq_right this, max_eq_left zero_le_one]
  · have a1 : 0 ≤ (t - a) / (b - a) := div_nonneg (by linarith) hb.le
    have a2 : (t - a) / (b - a) ≤ 1 := by rw [div_le_iff₀ hb]; linarith
    rw [min_eq_left a2, max_eq_left a1]

theorem clamp_close {x u : ℝ} (h0 : 0 ≤ u) (h1 : u ≤ 1) : |max (min x 1) 0 - u| ≤ |x - u| := by
  have e : u = max (min u 1) 0 := by rw [min_eq_left h1, max_eq_left h0]
  conv_lhs => rw [e]
  exact (abs_max_sub_max_le_abs _ _ _).trans (abs_min_sub_min_le_max _ _ _ _ |>.trans (by simp))

theorem uniform_value (D : DoubleWithin M d) {a b u : ℝ} (ha : |a| ≤ 1e200) (hb : |b| ≤ 1e200) (hab : 1e-200 ≤ b - a) (h0 : 0 ≤ u) (h1 : u < 1) :
    ∃ r, (Rounded.uniform M (fin a) (fin b)).draw (fin u) = fin r ∧ |uniformLaw a b r - u| ≤ 6e-16 + 1.2e-16 * (|a| / (b - a)) := by
  have hL : 0 < b - a := lt_of_lt_of_le (by norm_num) hab
  have hLb : b - a ≤ 1e200 + 1e200 := by
    have := abs_le.1 ha
    have := abs_le.1 hb
    linarith
  have ht := tiny_scale hab
  obtain ⟨l, el, hl⟩ := rnd_err D (x := b - a) (big_le (y := 1e200 + 1e200) (by rw [abs_of_pos hL]; exact hLb) (by norm_num))
  rw [abs_of_pos hL] at hl
  have hlaw := clamp_law (a := a) (b := b) (by linarith)
  have hdraw : (Rounded.uniform M (fin a) (fin b)).draw (fin u) = M.add (M.mul (fin l) (fin u)) (fin a) := by
    show M.add (M.mul (M.sub (fin b) (fin a)) (fin u)) (fin a) = _
    rw [Machine.sub_fin, el]
  rw [hdraw]
  generalize b - a = L at *
  obtain ⟨l1, l2⟩ := abs_le.1 hl
  have hl0 : 0 < l := by linarith
  have hlu : |l * u| ≤ 1.0001 * L := by
    rw [abs_mul, abs_of_pos hl0, abs_of_nonneg h0]
    have := mul_le_of_le_one_right hl0.le h1.le
    linarith
  obtain ⟨m, em, hm⟩ := rnd_err D (x := l * u) (big_le (y := 1.0001 * (1e200 + 1e200)) (hlu.trans (by linarith)) (by norm_num))
  have hma : |m + a| ≤ |a| + 1.001 * L := by
    have := abs_add_le (m - l * u) (l * u)
    rw [sub_add_cancel] at this
    refine (abs_add_le _ _).trans ?_
    linarith
  obtain ⟨r, er, hr⟩ := rnd_err D (x := m + a) (big_le (y := 1e200 + 1.001 * (1e200 + 1e200)) (hma.trans (by linarith)) (by norm_num))
  refine ⟨r, ?_, ?_⟩
  · rw [Machine.mul_fin, em, Machine.add_fin, er]
  · rw [hlaw]
    refine (clamp_close h0 h1.le).trans ?_
    have e : (r - a) / L - u = ((r - (m + a)) + (m - l * u) + (l - L) * u) / L := by field_simp; ring
    have e2 : (6e-16 + 1.2e-16 * (|a| / L)) * L = 6e-16 * L + 1.2e-16 * |a| := by field_simp
    rw [e, abs_div, abs_of_pos hL, div_le_iff₀ hL, e2]
    refine (abs_add_three _ _ _).trans ?_
    have h3 : |(l - L) * u| ≤ |l - L| := by
      rw [abs_mul, abs_of_nonneg h0]; exact mul_le_of_le_one_right (abs_nonneg _) h1.le
    linarith

theorem uniform_law {a b : ℝ} (h : a < b) : Monotone (uniformLaw a b) ∧ ∀ t, 0 ≤ uniformLaw a b t ∧ uniformLaw a b t ≤ 1 := by
  refine ⟨fun s t hst => ?_, fun t => ?_⟩
  · rw [clamp_law h, clamp_law h]
    exact max_le_max (min_le_min (div_le_div_of_nonneg_right (by linarith) (by linarith)) le_rfl) le_rfl
  · rw [clamp_law h]
    exact ⟨le_max_right _ _, max_le (min_le_right _ _) zero_le_one⟩

/-! ### Tent distribution -/

/-- The tent distribution from -1 to 1. -/
noncomputable def tent0 (z : ℝ) : ℝ := ((max (1 + min z 0) 0) ^ 2 + 1 - (max (1 - max z 0) 0) ^ 2) / 2

theorem tent0_eq {m w : ℝ} (hw : 0 < w) (t : ℝ) : tentLaw m w t = tent0 ((t - m) / w) := by
  have e : t - m = (t - m) / w * w := by field_simp
  unfold tentLaw tent0
  generalize hz : (t - m) / w = z at *
  split_ifs with h1 h2 h3
  · have : z ≤ -1 := by by_contra hc; nlinarith
    rw [min_eq_left (by linarith), max_eq_right (by linarith), max_eq_right (by linarith : z ≤ 0)]; norm_num
  · have a1 : z ≤ 0 := by by_contra hc; nlinarith
    have a2 : -1 ≤ z := by by_contra hc; nlinarith
    rw [min_eq_left a1, max_eq_left (by linarith), max_eq_right a1]; norm_num
  · have a1 : 0 ≤ z := by by_contra hc; nlinarith
    have a2 : z ≤ 1 := by by_contra hc; nlinarith
    rw [min_eq_right a1, max_eq_left a1, max_eq_left (by linarith : 0 ≤ 1 - z)]; norm_num; ring
  · have a1 : 1 ≤ z := by by_contra hc; nlinarith
    rw [min_eq_right (by linarith), max_eq_left (by linarith : 0 ≤ z), max_eq_right (by linarith : 1 - z ≤ 0)]; norm_num

theorem sq_close {x y : ℝ} (hx0 : 0 ≤ x) (hx1 : x ≤ 1) (hy0 : 0 ≤ y) (hy1 : y ≤ 1) : |x ^ 2 - y ^ 2| ≤ 2 * |x - y| := by
  rw [show x ^ 2 - y ^ 2 = (x + y) * (x - y) by ring, abs_mul, abs_of_nonneg (by linarith : 0 ≤ x + y)]
  exact mul_le_mul_of_nonneg_right (by linarith) (abs_nonneg _)

theorem tent0_lip (y z : ℝ) : |tent0 y - tent0 z| ≤ 2 * |y - z| := by
  have r1 : ∀ z : ℝ, 0 ≤ max (1 + min z 0) 0 ∧ max (1 + min z 0) 0 ≤ 1 := fun z => ⟨le_max_right _ _, max_le (by linarith [min_le_right z 0]) zero_le_one⟩
  have r2 : ∀ z : ℝ, 0 ≤ max (1 - max z 0) 0 ∧ max (1 - max z 0) 0 ≤ 1 := fun z => ⟨le_max_right _ _, max_le (by linarith [le_max_right z 0]) zero_le_one⟩
  have a := sq_close (r1 y).1 (r1 y).2 (r1 z).1 (r1 z).2
  have b := sq_close (r2 y).1 (r2 y).2 (r2 z).1 (r2 z).2
  have a' : |max (1 + min y 0) 0 - max (1 + min z 0) 0| ≤ |y - z| := by
    refine (abs_max_sub_max_le_abs _ _ _).trans ?_
    rw [add_sub_add_left_eq_sub]
    exact (abs_min_sub_min_le_max _ _ _ _).trans (by simp)
  have b' : |max (1 - max y 0) 0 - max (1 - max z 0) 0| ≤ |y - z| := by
    refine (abs_max_sub_max_le_abs _ _ _).trans ?_
    rw [sub_sub_sub_cancel_left, abs_sub_comm]
    exact abs_max_sub_max_le_abs _ _ _
  unfold tent0
  obtain ⟨a1, a2⟩ := abs_le.1 a
  obtain ⟨b1, b2⟩ := abs_le.1 b
  exact abs_le.2 ⟨by linarith, by linarith⟩

theorem tent0_mono : Monotone tent0 := by
  intro y z h
  unfold tent0
  have a : max (1 + min y 0) 0 ≤ max (1 + min z 0) 0 := max_le_max (by linarith [min_le_min_right 0 h]) le_rfl
  have b : max (1 - max z 0) 0 ≤ max (1 - max y 0) 0 := max_le_max (by linarith [max_le_max_right 0 h]) le_rfl
  have a2 := pow_le_pow_left₀ (le_max_right _ _) a 2
  have b2 := pow_le_pow_left₀ (le_max_right _ _) b 2
  linarith

theorem tent_law {m w : ℝ} (hw : 0 < w) : Monotone (tentLaw m w) ∧ ∀ t, 0 ≤ tentLaw m w t ∧ tentLaw m w t ≤ 1 := by
  have r1 : ∀ z : ℝ, 0 ≤ max (1 + min z 0) 0 ∧ max (1 + min z 0) 0 ≤ 1 := fun z => ⟨le_max_right _ _, max_le (by linarith [min_le_right z 0]) zero_le_one⟩
  have r2 : ∀ z : ℝ, 0 ≤ max (1 - max z 0) 0 ∧ max (1 - max z 0) 0 ≤ 1 := fun z => ⟨le_max_right _ _, max_le (by linarith [le_max_right z 0]) zero_le_one⟩
  refine ⟨fun s t hst => ?_, fun t => ?_⟩
  · rw [tent0_eq hw, tent0_eq hw]
    exact tent0_mono (div_le_div_of_nonneg_right (by linarith) hw.le)
  · rw [tent0_eq hw]
    unfold tent0
    have a := r1 ((t - m) / w)
    have b := r2 ((t - m) / w)
    have a1 := pow_le_one₀ (n := 2) a.1 a.2
    have b1 := pow_le_one₀ (n := 2) b.1 b.2
    have a0 := pow_nonneg a.1 2
    have b0 := pow_nonneg b.1 2
    exact ⟨by linarith, by linarith⟩

theorem sqrt_close {v w ρ τ : ℝ} (hv : 0 ≤ v) (hw : 0 ≤ w) (hτ : 0 ≤ τ) (hρ0 : 0 ≤ ρ) (hρ : ρ ≤ 1) (h : |w - v| ≤ ρ * v + τ ^ 2) :
    |Real.sqrt w - Real.sqrt v| ≤ ρ * Real.sqrt v + τ := by
  obtain ⟨h1, h2⟩ := abs_le.1 h
  have sv := Real.sq_sqrt hv
  have sw := Real.sq_sqrt hw
  have nv := Real.sqrt_nonneg v
  have nw := Real.sqrt_nonneg w
  generalize Real.sqrt v = a at *
  generalize Real.sqrt w = b at *
  have c1 : b ≤ a * (1 + ρ) + τ := by
    refine abs_le_of_sq_le_sq' ?_ (by positivity) |>.2
    have : 0 ≤ 2 * (a * (1 + ρ)) * τ := by positivity
    nlinarith [mul_nonneg hρ0 (sq_nonneg a), mul_nonneg (mul_nonneg hρ0 hρ0) (sq_nonneg a)]
  have c2 : a * (1 - ρ) ≤ b + τ := by
    refine abs_le_of_sq_le_sq' ?_ (by positivity) |>.2
    have : 0 ≤ 2 * b * τ := by positivity
    have : a ^ 2 * (1 - ρ) * ρ ≥ 0 := mul_nonneg (mul_nonneg (sq_nonneg a) (by linarith)) hρ0
    nlinarith
  exact abs_le.2 ⟨by linarith, by linarith⟩

/-- Square root of a rounded value. -/
theorem root (D : DoubleWithin M d) (hd : d ≤ 9e-16) {v : ℝ} (h0 : 0 ≤ v) (h1 : v ≤ 1) :
    ∃ w s, M.rnd v = fin w ∧ M.sqrt (fin w) = fin s ∧ |s - Real.sqrt v| ≤ 4e-15 := by
  have R := ieee_rounding (p := 53) (lo := -1074) (hi := 1024) (by norm_num) (by norm_num) (by norm_num)
  obtain ⟨w, ew, hw⟩ := rnd_err D (x := v) (big_le (y := 1) (by rw [abs_of_nonneg h0]; exact h1) (by norm_num))
  have hw0 : 0 ≤ w := by
    have h := R.mono _ _ h0
    rw [R.zero, ← D.rnd, ew, fin_le] at h
    exact h
  rw [abs_of_nonneg h0] at hw
  have ht := tiny_le
  obtain ⟨w1, w2⟩ := abs_le.1 hw
  have hw2 : w ≤ 4 := by linarith
  obtain ⟨s, es, hs⟩ := D.sqrt w hw0 (hw2.trans (by norm_num))
  change _ ≤ _ + tiny at hs
  have hc := sqrt_close (ρ := 1.2e-16) (τ := 1e-15) h0 hw0 (by norm_num) (by norm_num) (by norm_num) (hw.trans (by
    have : tiny ≤ (1e-15 : ℝ) ^ 2 := ht.trans (by norm_num)
    linarith))
  have s1 : Real.sqrt v ≤ 1 := by rw [Real.sqrt_le_iff]; exact ⟨zero_le_one, by linarith⟩
  have s2 : |Real.sqrt w| ≤ 2 := by
    rw [abs_of_nonneg (Real.sqrt_nonneg _), Real.sqrt_le_iff]; exact ⟨by norm_num, by linarith⟩
  have s3 : d * |Real.sqrt w| ≤ 9e-16 * 2 := mul_le_mul hd s2 (abs_nonneg _) (by norm_num)
  refine ⟨w, s, ew, es, ?_⟩
  have := abs_add_le (s - Real.sqrt w) (Real.sqrt w - Real.sqrt v)
  rw [sub_add_sub_cancel] at this
  linarith

theorem tent_value (D : DoubleWithin M d) (hd : d ≤ 9e-16) {m w u : ℝ} (w0 : 1e-200 ≤ w) (w1 : w ≤ 1e200) (hm : |m| ≤ 1e200)
    (h0 : 0 ≤ u) (h1 : u ≤ 1) (h2 : 1 / 2 ≤ u → M.rnd (2 * u) = fin (2 * u)) :
    ∃ r, (Rounded.tent M (fin m) (fin w)).draw (fin u) = fin r ∧ |tentLaw m w r - u| ≤ 6e-14 + 2.4e-16 * (|m| / w) := by
  have hw : 0 < w := lt_of_lt_of_le (by norm_num) w0
  have R : Rounding M.rnd := by rw [D.rnd]; exact ieee_rounding (by norm_num) (by norm_num) (by norm_num)
  have ht := tiny_le
  -- what is common to both halves
  have fin_part : ∀ x y : ℝ, |y| ≤ 1 → tent0 y = u → |x - y| ≤ 5e-15 → ∃ r, M.add (M.mul (fin x) (fin w)) (fin m) = fin r ∧
      |tentLaw m w r - u| ≤ 6e-14 + 2.4e-16 * (|m| / w) := by
    intro x y hy hu hxy
    have hx : |x| ≤ 100 := by
      have := abs_add_le (x - y) y
      rw [sub_add_cancel] at this
      linarith
    obtain ⟨k, ek, hk⟩ := scale D (q := x) w0 w1 hx
    obtain ⟨r, er, hr⟩ := shift D w0 w1 hm (q := x) hx hk
    refine ⟨r, by rw [Machine.mul_fin, mul_comm, ek, Machine.add_fin, add_comm, er], ?_⟩
    rw [tent0_eq hw, ← hu]
    refine (tent0_lip _ _).trans ?_
    have := abs_add_le ((r - m) / w - x) (x - y)
    rw [sub_add_sub_cancel] at this
    linarith
  have half : M.div 1 2 = fin (1 / 2) := by
    rw [one_def, two_def, Machine.div_fin _ two_ne_zero, R.half]
  have hdraw : (Rounded.tent M (fin m) (fin w)).draw (fin u) = if u < 1 / 2 then M.add (M.mul (M.add (fin (-1)) (M.sqrt (M.mul 2 (fin u)))) (fin w)) (fin m)
      else M.add (M.mul (M.sub 1 (M.sqrt (M.sub 2 (M.mul 2 (fin u))))) (fin w)) (fin m) := by
    show Rounded.tentIcdf M (fin m) (fin w) (fin u) = _
    unfold Rounded.tentIcdf
    rw [half]
    simp only [fin_lt]
  rw [hdraw]
  split_ifs with hc
  · obtain ⟨v, s, ev, es, hs⟩ := root D hd (v := 2 * u) (by linarith) (by linarith)
    have s0 := Real.sqrt_nonneg (2 * u)
    have s1 : Real.sqrt (2 * u) ≤ 1 := by rw [Real.sqrt_le_iff]; exact ⟨zero_le_one, by linarith⟩
    have sq := Real.sq_sqrt (show 0 ≤ 2 * u by linarith)
    generalize Real.sqrt (2 * u) = z at *
    obtain ⟨a1, a2⟩ := abs_le.1 hs
    have hb : |-1 + s| ≤ 2 := abs_le.2 ⟨by linarith, by linarith⟩
    obtain ⟨x, ex, hx⟩ := rnd_err D (x := -1 + s) (big_le hb (by norm_num))
    rw [two_def, Machine.mul_fin, ev, es, Machine.add_fin, ex]
    refine fin_part x (-1 + z) (abs_le.2 ⟨by linarith, by linarith⟩) ?_ ?_
    · unfold tent0
      rw [min_eq_left (by linarith), max_eq_left (by linarith), max_eq_right (by linarith : -1 + z ≤ 0)]
      norm_num
      linarith
    · obtain ⟨b1, b2⟩ := abs_le.1 hx
      exact abs_le.2 ⟨by linarith, by linarith⟩
  · have hc' := not_lt.1 hc
    obtain ⟨v, s, ev, es, hs⟩ := root D hd (v := 2 - 2 * u) (by linarith) (by linarith)
    have s0 := Real.sqrt_nonneg (2 - 2 * u)
    have s1 : Real.sqrt (2 - 2 * u) ≤ 1 := by rw [Real.sqrt_le_iff]; exact ⟨zero_le_one, by linarith⟩
    have sq := Real.sq_sqrt (show 0 ≤ 2 - 2 * u by linarith)
    generalize Real.sqrt (2 - 2 * u) = z at *
    obtain ⟨a1, a2⟩ := abs_le.1 hs
    have hb : |1 - s| ≤ 2 := abs_le.2 ⟨by linarith, by linarith⟩
    obtain ⟨x, ex, hx⟩ := rnd_err D (x := 1 - s) (big_le hb (by norm_num))
    rw [one_def, two_def, Machine.mul_fin, h2 hc', Machine.sub_fin, ev, es, Machine.sub_fin, ex]
    refine fin_part x (1 - z) (abs_le.2 ⟨by linarith, by linarith⟩) ?_ ?_
    · unfold tent0
      rw [min_eq_right (by linarith), max_eq_left (by linarith : 0 ≤ 1 - z), max_eq_left (by linarith : 0 ≤ 1 - (1 - z))]
      norm_num
      linarith
    · obtain ⟨b1, b2⟩ := abs_le.1 hx
      exact abs_le.2 ⟨by linarith, by linarith⟩

/-! ### Log-normal distribution -/

theorem lognormal_value (D : DoubleWithin M d) (hd : d ≤ 9e-16) {c k mu sigma u : ℝ} (t0 : 1e-200 ≤ sigma) (t1 : |mu| + 39 * sigma ≤ 680)
    (hR : M.Rep u) (h0 : 2 ^ (-52 : ℤ) ≤ u) (h1 : u < 1) :
    ∃ r, (Rounded.lognormal M (invPhiDouble M) c k (fin mu) (fin sigma)).draw (fin u) = fin r ∧
      |lognormalLaw mu sigma r - u| ≤ 4e-12 + 2e-15 / sigma + 1.2e-16 * (|mu| / sigma) := by
  have hm : 0 < sigma := lt_of_lt_of_le (by norm_num) t0
  have hu : 0 < u := lt_of_lt_of_le (by positivity) h0
  have h0' : (2 : ℝ)⁻¹ ^ 1022 ≤ u := by
    refine le_trans ?_ h0
    rw [inv_pow, ← zpow_natCast, ← zpow_neg]
    exact zpow_le_zpow_right₀ one_le_two (by norm_num)
  obtain ⟨y, ey, hy, h2, h3⟩ := invPhi_value D hd hR h0' h1
  have hacc : |PhiR y - u| ≤ 3.001e-12 := by
    rcases le_total u (1 / 2) with h | h
    · exact (h2 h).trans (by linarith)
    · exact (h3 h).trans (by linarith)
  have hmu : |mu| ≤ 680 := by linarith
  have hs : sigma ≤ 680 := by linarith [abs_nonneg mu]
  obtain ⟨m, em, hm'⟩ := scale D (q := y) t0 (hs.trans (by norm_num)) (by linarith)
  obtain ⟨x, er, hr⟩ := shift D t0 (hs.trans (by norm_num)) (hmu.trans (by norm_num)) (q := y) (by linarith) hm'
  have hxb : |x| ≤ 690 := by
    have e : x = ((x - mu) / sigma - y) * sigma + (y * sigma + mu) := by field_simp; ring
    have a : |((x - mu) / sigma - y) * sigma| ≤ 2.5e-14 * sigma + 1.2e-16 * |mu| := by
      rw [abs_mul, abs_of_pos hm]
      refine (mul_le_mul_of_nonneg_right hr hm.le).trans (le_of_eq ?_)
      field_simp
    have b : |y * sigma + mu| ≤ 38 * sigma + |mu| := by
      refine (abs_add_le _ _).trans ?_
      rw [abs_mul, abs_of_pos hm]
      have := mul_le_mul_of_nonneg_right hy hm.le
      linarith
    rw [e]
    refine (abs_add_le _ _).trans ?_
    linarith
  obtain ⟨x1, x2⟩ := abs_le.1 hxb
  obtain ⟨r, ee, he⟩ := D.exp x (by linarith)
  have hE := Real.exp_pos x
  rw [abs_of_pos hE] at he
  change _ ≤ _ + tiny at he
  have ht := tiny_exp x1
  have hd' : d * Real.exp x ≤ 9e-16 * Real.exp x := mul_le_mul_of_nonneg_right hd hE.le
  obtain ⟨hr0, hl⟩ := log_rel hE (show |r - Real.exp x| ≤ 1e-15 * Real.exp x by linarith) (by norm_num)
  rw [Real.log_exp] at hl
  refine ⟨r, ?_, ?_⟩
  · show Rounded.lognormalIcdf M (invPhiDouble M) (fin mu) (fin sigma) (fin u) = _
    unfold Rounded.lognormalIcdf
    simp only [zero_def, one_def, fin_lt, fin_eq]
    rw [if_neg (by push Not; constructor <;> linarith), if_neg hu.ne', if_neg h1.ne, ey, Machine.mul_fin, mul_comm, em, Machine.add_fin, add_comm, er, ee]
  · unfold lognormalLaw
    rw [if_neg (not_le.2 hr0), Trng.stdNormal_eq]
    have a := PhiR_lip ((Real.log r - mu) / sigma) ((x - mu) / sigma)
    rw [show (Real.log r - mu) / sigma - (x - mu) / sigma = (Real.log r - x) / sigma by ring, abs_div, abs_of_pos hm] at a
    have a' : |Real.log r - x| / sigma ≤ 2e-15 / sigma := div_le_div_of_nonneg_right (hl.trans (by norm_num)) hm.le
    have b := PhiR_lip ((x - mu) / sigma) y
    obtain ⟨a1, a2⟩ := abs_le.1 (a.trans a')
    obtain ⟨b1, b2⟩ := abs_le.1 (b.trans hr)
    obtain ⟨c1, c2⟩ := abs_le.1 hacc
    exact abs_le.2 ⟨by linarith, by linarith⟩

theorem lognormal_law {mu sigma : ℝ} (hs : 0 < sigma) : Monotone (lognormalLaw mu sigma) ∧ ∀ t, 0 ≤ lognormalLaw mu sigma t ∧ lognormalLaw mu sigma t ≤ 1 := by
  refine ⟨fun s t hst => ?_, fun t => ?_⟩
  · unfold lognormalLaw
    split_ifs with a b b
    · exact le_rfl
    · rw [Trng.stdNormal_eq]; exact (PhiR_pos _).le
    · exact absurd (hst.trans b) a
    · rw [Trng.stdNormal_eq, Trng.stdNormal_eq]
      refine strictMono_PhiR.monotone (div_le_div_of_nonneg_right ?_ hs.le)
      linarith [Real.log_le_log (not_le.1 a) hst]
  · unfold lognormalLaw
    split_ifs with a
    · exact ⟨le_rfl, zero_le_one⟩
    · rw [Trng.stdNormal_eq]
      exact ⟨(PhiR_pos _).le, (PhiR_lt_one _).le⟩

end Trng.PeriodLaw
