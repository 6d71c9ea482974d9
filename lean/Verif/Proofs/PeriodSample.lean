import Verif.Proofs.RoundedInverse
import Verif.Props.Normal
import Verif.Spec.PeriodLaw
import Mathlib.Analysis.Calculus.MeanValue

/-! Samples of continuous distributions in `double` arithmetic: the distribution function at the sample is the deviate, up to a small error. -/
namespace Trng.PeriodLaw
open XR Machine Spec Rounded Inverse

/-! ### Functions -/

theorem lip {f f' : ℝ → ℝ} {C : ℝ} (h : ∀ x, HasDerivAt f (f' x) x) (hb : ∀ x, |f' x| ≤ C) (x y : ℝ) : |f x - f y| ≤ C * |x - y| := by
  have := Convex.norm_image_sub_le_of_norm_hasDerivWithin_le (s := Set.univ) (fun x _ => (h x).hasDerivWithinAt) (fun x _ => hb x) convex_univ
    (Set.mem_univ y) (Set.mem_univ x)
  simpa using this

theorem exp_lip {a b : ℝ} (ha : a ≤ 0) (hb : b ≤ 0) : |Real.exp a - Real.exp b| ≤ |a - b| := by
  wlog h : b ≤ a generalizing a b
  · rw [abs_sub_comm, abs_sub_comm a]; exact this hb ha (not_le.1 h).le
  have e := Real.exp_le_exp.2 h
  rw [abs_of_nonneg (by linarith), abs_of_nonneg (by linarith)]
  have h1 := Real.add_one_le_exp (b - a)
  have h2 : Real.exp b = Real.exp a * Real.exp (b - a) := by rw [← Real.exp_add]; congr 1; ring
  have h3 := Real.exp_pos a
  have h4 := Real.exp_le_one_iff.2 ha
  rw [h2]
  nlinarith

theorem log_rel {v w ρ : ℝ} (hv : 0 < v) (h : |w - v| ≤ ρ * v) (hρ : ρ ≤ 1 / 2) : 0 < w ∧ |Real.log w - Real.log v| ≤ 2 * ρ := by
  obtain ⟨h1, h2⟩ := abs_le.1 h
  have hρ0 : 0 ≤ ρ := by
    by_contra hc
    have := (abs_nonneg _).trans h
    nlinarith
  have hw : 0 < w := by nlinarith
  refine ⟨hw, ?_⟩
  rw [← Real.log_div hw.ne' hv.ne']
  have u1 : w / v ≤ 1 + ρ := by rw [div_le_iff₀ hv]; linarith
  have u2 : v / w ≤ 1 + 2 * ρ := by rw [div_le_iff₀ hw]; nlinarith
  have l1 := Real.log_le_sub_one_of_pos (div_pos hw hv)
  have l2 := Real.log_le_sub_one_of_pos (div_pos hv hw)
  rw [← inv_div, Real.log_inv, inv_div] at l2
  exact abs_le.2 ⟨by linarith, by linarith⟩

theorem log_bound {w : ℝ} (h0 : 2 ^ (-57 : ℤ) ≤ w) (h1 : w ≤ 2 ^ (57 : ℤ)) : |Real.log w| ≤ 40 := by
  have hw : 0 < w := lt_of_lt_of_le (by positivity) h0
  have a := Real.log_le_log (by positivity) h0
  have b := Real.log_le_log hw h1
  rw [Real.log_zpow] at a b
  have := Real.log_two_lt_d9
  push_cast at a b
  exact abs_le.2 ⟨by linarith, by linarith⟩

/-! ### Arithmetic -/

variable {M : Machine} {d : ℝ}

theorem ln_val (D : DoubleWithin M d) (hd : d ≤ 9e-16) {w : ℝ} (h0 : 2 ^ (-57 : ℤ) ≤ w) (h1 : w ≤ 2 ^ (57 : ℤ)) :
    ∃ q, M.ln (fin w) = fin q ∧ |q - Real.log w| ≤ 3.7e-14 ∧ |q| ≤ 41 := by
  have hb := log_bound h0 h1
  obtain ⟨q, e, hq⟩ := D.ln w (lt_of_lt_of_le (by positivity) h0) (hb.trans (by norm_num))
  have ht := tiny_le
  change _ ≤ _ + tiny at hq
  have h2 : d * |Real.log w| ≤ 9e-16 * 40 := mul_le_mul hd hb (abs_nonneg _) (by norm_num)
  have h3 : |q - Real.log w| ≤ 3.7e-14 := by linarith
  refine ⟨q, e, h3, ?_⟩
  have := abs_add_le (q - Real.log w) (Real.log w)
  rw [sub_add_cancel] at this
  linarith

theorem tiny_scale {theta : ℝ} (h0 : 1e-200 ≤ theta) : tiny ≤ 1e-20 * theta := by
  have h1 : (2 : ℝ) ^ (1000 : ℕ) ≥ 1e200 := by
    have e : (2 : ℝ) ^ (1000 : ℕ) = (2 ^ (10 : ℕ)) ^ (100 : ℕ) := by rw [← pow_mul]
    rw [e]
    calc (1e200 : ℝ) = (10 ^ 2) ^ 100 := by norm_num
      _ ≤ _ := pow_le_pow_left₀ (by norm_num) (by norm_num) _
  have h2 := tiny_mul
  have h3 : tiny * 1e200 ≤ 1e-20 := (mul_le_mul_of_nonneg_left h1 tiny_pos.le).trans h2
  have h4 : tiny ≤ 1e-20 * 1e-200 := by
    rw [← le_div_iff₀ (by norm_num)] at h3
    exact h3.trans (by norm_num)
  exact h4.trans (mul_le_mul_of_nonneg_left h0 (by norm_num))

/-- Scaling. -/
theorem scale (D : DoubleWithin M d) {theta q : ℝ} (h0 : 1e-200 ≤ theta) (h1 : theta ≤ 1e200) (hq : |q| ≤ 100) :
    ∃ m, M.rnd (theta * q) = fin m ∧ |m - theta * q| ≤ 1.21e-14 * theta := by
  have ht : 0 < theta := lt_of_lt_of_le (by norm_num) h0
  have hb : |theta * q| ≤ theta * 100 := by rw [abs_mul, abs_of_pos ht]; exact mul_le_mul_of_nonneg_left hq ht.le
  obtain ⟨m, e, hm⟩ := rnd_err D (x := theta * q) (big_le (hb.trans (mul_le_mul_of_nonneg_right h1 (by norm_num))) (by norm_num))
  refine ⟨m, e, hm.trans ?_⟩
  have := tiny_scale h0
  linarith

/-- Shifting. -/
theorem shift (D : DoubleWithin M d) {theta eta q m : ℝ} (h0 : 1e-200 ≤ theta) (h1 : theta ≤ 1e200) (he : |eta| ≤ 1e200) (hq : |q| ≤ 100)
    (hm : |m - theta * q| ≤ 1.21e-14 * theta) :
    ∃ r, M.rnd (eta + m) = fin r ∧ |(r - eta) / theta - q| ≤ 2.5e-14 + 1.2e-16 * (|eta| / theta) := by
  have ht : 0 < theta := lt_of_lt_of_le (by norm_num) h0
  have hb : |theta * q| ≤ theta * 100 := by rw [abs_mul, abs_of_pos ht]; exact mul_le_mul_of_nonneg_left hq ht.le
  have hmb : |m| ≤ theta * 101 := by
    have := abs_add_le (m - theta * q) (theta * q)
    rw [sub_add_cancel] at this
    linarith
  have hs : |eta + m| ≤ |eta| + theta * 101 := (abs_add_le _ _).trans (by linarith)
  obtain ⟨r, e, hr⟩ := rnd_err D (x := eta + m) (big_le (y := 1e200 + 1e200 * 101) (hs.trans (by linarith)) (by norm_num))
  refine ⟨r, e, ?_⟩
  have h2 := tiny_scale h0
  have h3 : |r - eta - theta * q| ≤ 2.5e-14 * theta + 1.2e-16 * |eta| := by
    have := abs_add_le (r - (eta + m)) (m - theta * q)
    rw [show r - (eta + m) + (m - theta * q) = r - eta - theta * q by ring] at this
    linarith
  have e2 : (r - eta) / theta - q = (r - eta - theta * q) / theta := by field_simp
  rw [e2, abs_div, abs_of_pos ht, div_le_iff₀ ht]
  refine h3.trans (le_of_eq ?_)
  field_simp

theorem shift' (D : DoubleWithin M d) {theta eta q m : ℝ} (h0 : 1e-200 ≤ theta) (h1 : theta ≤ 1e200) (he : |eta| ≤ 1e200) (hq : |q| ≤ 100)
    (hm : |m - theta * q| ≤ 1.21e-14 * theta) :
    ∃ r, M.rnd (eta - m) = fin r ∧ |(r - eta) / theta - -q| ≤ 2.5e-14 + 1.2e-16 * (|eta| / theta) := by
  have := shift D (eta := eta) (q := -q) (m := -m) h0 h1 he (by rwa [abs_neg])
    (by rwa [show -m - theta * -q = -(m - theta * q) by ring, abs_neg])
  rwa [← sub_eq_add_neg] at this

theorem rnd_near (D : DoubleWithin M d) {x : ℝ} (h0 : 2 ^ (-60 : ℤ) ≤ x) (h1 : x ≤ 2 ^ (60 : ℤ)) : ∃ r, M.rnd x = fin r ∧ |r - x| ≤ 1.3e-16 * x := by
  have hx : 0 < x := lt_of_lt_of_le (by positivity) h0
  obtain ⟨r, e, hr⟩ := rnd_err D (x := x) (by rw [abs_of_pos hx]; exact h1.trans (zpow_le_zpow_right₀ one_le_two (by norm_num)))
  rw [abs_of_pos hx] at hr
  refine ⟨r, e, hr.trans ?_⟩
  have : tiny ≤ 1e-17 * 2 ^ (-60 : ℤ) := by
    have := tiny_scale (theta := 1e-17) (by norm_num)
    exact this.trans (by norm_num)
  have : tiny ≤ 1e-17 * x := this.trans (mul_le_mul_of_nonneg_left h0 (by norm_num))
  linarith

theorem near_one (D : DoubleWithin M d) {u : ℝ} (hR : M.Rep u) (h1 : u < 1) : 2 ^ (-53 : ℤ) ≤ 1 - u := by
  rcases le_total (1 / 2) u with h | h
  · obtain ⟨n, hn⟩ := rep_half D h h1 hR
    have := one_sub_ge hn h1
    rwa [inv_pow, ← zpow_natCast, ← zpow_neg] at this
  · exact le_trans (by norm_num) (show (1 / 2 : ℝ) ≤ 1 - u by linarith)

theorem half_le {p x y ρ : ℝ} (hp : p ≤ y) (hy : 0 ≤ y) (h : |x - y| ≤ ρ * y) (hρ : ρ ≤ 1 / 2) : p / 2 ≤ x := by
  have := (abs_le.1 h).1
  nlinarith

/-! ### Distributions -/

theorem exponential_value (D : DoubleWithin M d) (hd : d ≤ 9e-16) {mu u : ℝ} (m0 : 1e-200 ≤ mu) (m1 : mu ≤ 1e200) (h0 : 2 ^ (-53 : ℤ) ≤ u) (h1 : u ≤ 1) :
    ∃ r, (exponential M (fin mu)).draw (fin u) = fin r ∧ |exponentialLaw mu r - (1 - u)| ≤ 5e-14 := by
  have hm : 0 < mu := lt_of_lt_of_le (by norm_num) m0
  have hu : 0 < u := lt_of_lt_of_le (by positivity) h0
  obtain ⟨q, eq, hq, hqb⟩ := ln_val D hd (w := u) (le_trans (by norm_num) h0) (h1.trans (by norm_num))
  obtain ⟨r, er, hr⟩ := scale D (q := -q) m0 m1 (by rw [abs_neg]; linarith)
  refine ⟨r, ?_, ?_⟩
  · show M.mul (-fin mu) (M.ln (fin u)) = _
    rw [eq, neg_fin, Machine.mul_fin, ← er]; congr 1; ring
  · have e : exponentialLaw mu r = 1 - Real.exp (-max (r / mu) 0) := by
      unfold exponentialLaw
      split_ifs with h
      · rw [max_eq_right (div_nonpos_of_nonpos_of_nonneg h hm.le)]; simp
      · rw [max_eq_left (div_nonneg (not_le.1 h).le hm.le), neg_div]
    have hl := Real.log_nonpos hu.le h1
    have e2 : 1 - u = 1 - Real.exp (-max (-Real.log u) 0) := by rw [max_eq_left (by linarith), neg_neg, Real.exp_log hu]
    rw [e, e2, sub_sub_sub_cancel_left]
    refine (exp_lip (by simp) (by simp)).trans ?_
    rw [neg_sub_neg]
    refine (abs_max_sub_max_le_abs _ _ _).trans ?_
    have h3 : |r / mu + q| ≤ 1.21e-14 := by
      rw [show r / mu + q = (r - mu * -q) / mu by field_simp; ring, abs_div, abs_of_pos hm, div_le_iff₀ hm]
      exact hr
    obtain ⟨a1, a2⟩ := abs_le.1 h3
    obtain ⟨b1, b2⟩ := abs_le.1 hq
    exact abs_le.2 ⟨by linarith, by linarith⟩

/-- The two-sided exponential distribution of scale 1. -/
noncomputable def two (q : ℝ) : ℝ := if q ≤ 0 then Real.exp q / 2 else 1 - Real.exp (-q) / 2

theorem two_lip (p q : ℝ) : |two p - two q| ≤ |p - q| := by
  unfold two
  split_ifs with h h'
  · rw [← sub_div, abs_div]
    have := exp_lip h h'
    norm_num
    linarith [abs_nonneg (p - q)]
  · have a := exp_lip h le_rfl
    have b := exp_lip (a := -q) (b := 0) (by linarith) le_rfl
    rw [sub_zero, Real.exp_zero] at a b
    rw [abs_of_nonpos h] at a
    rw [abs_neg, abs_of_pos (not_le.1 h')] at b
    obtain ⟨a1, a2⟩ := abs_le.1 a
    obtain ⟨b1, b2⟩ := abs_le.1 b
    rw [abs_of_nonpos (a := p - q) (by linarith)]
    exact abs_le.2 ⟨by linarith, by linarith⟩
  · rename_i h'
    have a := exp_lip h' le_rfl
    have b := exp_lip (a := -p) (b := 0) (by linarith) le_rfl
    rw [sub_zero, Real.exp_zero] at a b
    rw [abs_of_nonpos h'] at a
    rw [abs_neg, abs_of_pos (not_le.1 h)] at b
    obtain ⟨a1, a2⟩ := abs_le.1 a
    obtain ⟨b1, b2⟩ := abs_le.1 b
    rw [abs_of_nonneg (a := p - q) (by linarith)]
    exact abs_le.2 ⟨by linarith, by linarith⟩
  · have := exp_lip (a := -q) (b := -p) (by linarith) (by linarith)
    rw [show -q - -p = p - q by ring] at this
    obtain ⟨a1, a2⟩ := abs_le.1 this
    have := abs_nonneg (p - q)
    exact abs_le.2 ⟨by linarith, by linarith⟩

theorem two_log {w : ℝ} (h0 : 0 < w) (h1 : w ≤ 1) : two (Real.log w) = w / 2 ∧ two (-Real.log w) = 1 - w / 2 := by
  have hl := Real.log_nonpos h0.le h1
  refine ⟨by rw [two, if_pos hl, Real.exp_log h0], ?_⟩
  unfold two
  split_ifs with h
  · have : Real.log w = 0 := by linarith
    have h2 := Real.exp_log h0
    rw [this, Real.exp_zero] at h2
    rw [this, neg_zero, Real.exp_zero, ← h2]; norm_num
  · rw [neg_neg, Real.exp_log h0]

theorem twosided_value (D : DoubleWithin M d) (hd : d ≤ 9e-16) {mu u : ℝ} (m0 : 1e-200 ≤ mu) (m1 : mu ≤ 1e200) (hR : M.Rep u)
    (h0 : 2 ^ (-52 : ℤ) ≤ u) (h1 : u < 1) :
    ∃ r, (twosidedExponential M (fin mu)).draw (fin u) = fin r ∧ |twosidedLaw mu r - u| ≤ 6e-14 := by
  have hm : 0 < mu := lt_of_lt_of_le (by norm_num) m0
  have hu : 0 < u := lt_of_lt_of_le (by positivity) h0
  have e : ∀ r, twosidedLaw mu r = two (r / mu) := by
    intro r
    unfold twosidedLaw two
    by_cases h : r ≤ 0
    · rw [if_pos h, if_pos (div_nonpos_of_nonpos_of_nonneg h hm.le)]
    · rw [if_neg h, if_neg (by rw [not_le]; exact div_pos (not_le.1 h) hm), neg_div]
  have hdraw : (twosidedExponential M (fin mu)).draw (fin u) =
      if u < 1 / 2 then M.mul (fin mu) (M.ln (M.mul 2 (fin u))) else M.mul (-fin mu) (M.ln (M.sub 2 (M.mul 2 (fin u)))) := by
    show Rounded.twosidedIcdf M (fin mu) (fin u) = _
    unfold Rounded.twosidedIcdf
    simp only [zero_def, one_def, fin_lt, fin_eq]
    rw [if_neg (by push Not; constructor <;> linarith), if_neg h1.ne, if_neg hu.ne']
  rw [hdraw]
  have close : ∀ {w v q r : ℝ}, |Real.log w - Real.log v| ≤ 2.7e-16 → |q - Real.log w| ≤ 3.7e-14 → |r - mu * q| ≤ 1.21e-14 * mu → |r / mu - Real.log v| ≤ 6e-14 := by
    intro w v q r a b c
    have c' : |r / mu - q| ≤ 1.21e-14 := by
      rw [show r / mu - q = (r - mu * q) / mu by field_simp, abs_div, abs_of_pos hm, div_le_iff₀ hm]; exact c
    obtain ⟨a1, a2⟩ := abs_le.1 a
    obtain ⟨b1, b2⟩ := abs_le.1 b
    obtain ⟨c1, c2⟩ := abs_le.1 c'
    exact abs_le.2 ⟨by linarith, by linarith⟩
  split_ifs with hc
  · obtain ⟨w, ew, hw⟩ := rnd_near D (x := 2 * u) (le_trans (by norm_num) (show (2 : ℝ) ^ (-52 : ℤ) ≤ 2 * u by linarith)) (by norm_num; linarith)
    obtain ⟨hw0, hwl⟩ := log_rel (by linarith) hw (by norm_num)
    obtain ⟨w1, w2⟩ := abs_le.1 hw
    obtain ⟨q, eq, hq, hqb⟩ := ln_val D hd (w := w) (le_trans (by norm_num) (show (2 : ℝ) ^ (-52 : ℤ) ≤ w by linarith)) (by norm_num; linarith)
    obtain ⟨r, er, hr⟩ := scale D (q := q) m0 m1 (by linarith)
    refine ⟨r, by rw [two_def, Machine.mul_fin, ew, eq, Machine.mul_fin, er], ?_⟩
    rw [e, show u = two (Real.log (2 * u)) by rw [(two_log (by linarith) (by linarith)).1]; ring]
    exact (two_lip _ _).trans (close (hwl.trans (by norm_num)) hq hr)
  · obtain ⟨n, hn⟩ := rep_half D (not_lt.1 hc) h1 hR
    have hone := near_one D hR h1
    have e2 : M.rnd (2 * u) = fin (2 * u) := by
      have h53 : (2 : ℝ) ^ (-53 : ℤ) = 1 / 2 ^ 53 := by norm_num
      have hn0 : 0 < n := by
        have : (0 : ℝ) < n * 2 ^ (-53 : ℤ) := by rw [← hn]; exact hu
        exact_mod_cast pos_of_mul_pos_left this (by positivity)
      obtain ⟨k, rfl⟩ := Int.eq_ofNat_of_zero_le hn0.le
      have hk : k < 2 ^ 53 := by
        rw [h53] at hn
        have : (k : ℝ) < 2 ^ 53 := by
          rw [hn] at h1; push_cast at h1; linarith
        exact_mod_cast this
      have := dbl_dyadic (n := k) (e := -52) hk (by norm_num) (by norm_num)
      have hk2 : 2 * u = k * 2 ^ (-52 : ℤ) := by
        rw [hn]; push_cast
        rw [show (2 : ℝ) ^ (-52 : ℤ) = 2 * 2 ^ (-53 : ℤ) by norm_num]; ring
      rw [hk2, D.rnd]
      exact this
    obtain ⟨w, ew, hw⟩ := rnd_near D (x := 2 - 2 * u) (le_trans (by norm_num) (show (2 : ℝ) ^ (-53 : ℤ) ≤ 2 - 2 * u by linarith)) (by norm_num; linarith)
    obtain ⟨hw0, hwl⟩ := log_rel (by linarith) hw (by norm_num)
    obtain ⟨w1, w2⟩ := abs_le.1 hw
    obtain ⟨q, eq, hq, hqb⟩ := ln_val D hd (w := w) (le_trans (by norm_num) (show (2 : ℝ) ^ (-53 : ℤ) ≤ w by linarith)) (by norm_num; linarith)
    obtain ⟨r, er, hr⟩ := scale D (q := -q) m0 m1 (by rw [abs_neg]; linarith)
    refine ⟨r, by rw [two_def, Machine.mul_fin, e2, Machine.sub_fin, ew, eq, neg_fin, Machine.mul_fin, ← er]; congr 1; ring, ?_⟩
    rw [e, show u = two (-Real.log (2 - 2 * u)) by rw [(two_log (by linarith) (by linarith)).2]; ring]
    refine (two_lip _ _).trans ?_
    have := close (r := -r) (hwl.trans (by norm_num)) hq (by rw [show -r - mu * q = -(r - mu * -q) by ring, abs_neg]; exact hr)
    rwa [show -r / mu - Real.log (2 - 2 * u) = -(r / mu - -Real.log (2 - 2 * u)) by ring, abs_neg] at this

/-- The logistic distribution of scale 1. -/
theorem logistic_lip (p q : ℝ) : |1 / (1 + Real.exp (-p)) - 1 / (1 + Real.exp (-q))| ≤ |p - q| := by
  have h : ∀ x : ℝ, HasDerivAt (fun x => 1 / (1 + Real.exp (-x))) (Real.exp (-x) / (1 + Real.exp (-x)) ^ 2) x := by
    intro x
    have h1 : HasDerivAt (fun x => 1 + Real.exp (-x)) (Real.exp (-x) * -1) x := ((hasDerivAt_neg x).exp).const_add 1
    have h2 := h1.fun_inv (by positivity)
    simp only [one_div]
    exact h2.congr_deriv (by ring)
  have := lip h (C := 1) (fun x => ?_) p q
  · rwa [one_mul] at this
  · have := Real.exp_pos (-x)
    rw [abs_of_pos (by positivity), div_le_one (by positivity)]
    nlinarith

theorem logistic_value (D : DoubleWithin M d) (hd : d ≤ 9e-16) {theta eta u : ℝ} (t0 : 1e-200 ≤ theta) (t1 : theta ≤ 1e200) (he : |eta| ≤ 1e200)
    (hR : M.Rep u) (h0 : 2 ^ (-52 : ℤ) ≤ u) (h1 : u < 1) :
    ∃ r, (logistic M (fin theta) (fin eta)).draw (fin u) = fin r ∧ |logisticLaw theta eta r - u| ≤ 7e-14 + 1.2e-16 * (|eta| / theta) := by
  have hm : 0 < theta := lt_of_lt_of_le (by norm_num) t0
  have hu : 0 < u := lt_of_lt_of_le (by positivity) h0
  have hone := near_one D hR h1
  have p53 : (2 : ℝ) ^ (-53 : ℤ) = 1 / 2 ^ 53 := by norm_num
  have p52 : (2 : ℝ) ^ (-52 : ℤ) = 1 / 2 ^ 52 := by norm_num
  obtain ⟨n, en, hn⟩ := rnd_near D (x := 1 - u) (le_trans (by norm_num) hone) (by norm_num; linarith)
  obtain ⟨hn0, hnl⟩ := log_rel (by linarith) hn (by norm_num)
  obtain ⟨n1, n2⟩ := abs_le.1 hn
  have v1 : 2 ^ (-54 : ℤ) ≤ n / u := by
    rw [le_div_iff₀ hu]
    have a : (2 : ℝ) ^ (-54 : ℤ) = 2 ^ (-53 : ℤ) / 2 := by norm_num
    have b := half_le hone (by linarith) hn (by norm_num)
    rw [a]
    exact (mul_le_of_le_one_right (by positivity) h1.le).trans b
  have v2 : n / u ≤ 2 ^ (53 : ℤ) := by
    rw [div_le_iff₀ hu]
    norm_num at h0 ⊢; linarith
  obtain ⟨v, ev, hv⟩ := rnd_near D (x := n / u) (le_trans (by norm_num) v1) (v2.trans (by norm_num))
  obtain ⟨hv0, hvl⟩ := log_rel (by positivity) hv (by norm_num)
  obtain ⟨w1, w2⟩ := abs_le.1 hv
  obtain ⟨q, eq, hq, hqb⟩ := ln_val D hd (w := v) (le_trans (by norm_num) (show (2 : ℝ) ^ (-54 : ℤ) / 2 ≤ v by linarith))
    (le_trans (show v ≤ 2 * 2 ^ (53 : ℤ) by linarith) (by norm_num))
  obtain ⟨m, em, hm'⟩ := scale D (q := q) t0 t1 (by linarith)
  obtain ⟨r, er, hr⟩ := shift' D t0 t1 he (q := q) (by linarith) hm'
  refine ⟨r, ?_, ?_⟩
  · show Rounded.logisticIcdf M (fin theta) (fin eta) (fin u) = _
    unfold Rounded.logisticIcdf
    rw [one_def, Machine.sub_fin, en, Machine.div_fin _ hu.ne', ev, eq, Machine.mul_fin, mul_comm, em, Machine.sub_fin, er]
  · have e : logisticLaw theta eta r = 1 / (1 + Real.exp (-((r - eta) / theta))) := by unfold logisticLaw; rw [neg_div]
    have e2 : u = 1 / (1 + Real.exp (-(-(Real.log (1 - u) - Real.log u)))) := by
      rw [neg_neg, Real.exp_sub, Real.exp_log (by linarith), Real.exp_log hu]
      field_simp; ring
    rw [e]
    conv_lhs => rw [e2]
    refine (logistic_lip _ _).trans ?_
    rw [Real.log_div hn0.ne' hu.ne'] at hvl
    obtain ⟨a1, a2⟩ := abs_le.1 hvl
    obtain ⟨b1, b2⟩ := abs_le.1 hnl
    obtain ⟨c1, c2⟩ := abs_le.1 hq
    obtain ⟨d1, d2⟩ := abs_le.1 hr
    exact abs_le.2 ⟨by linarith, by linarith⟩

theorem extreme_lip (p q : ℝ) : |(1 - Real.exp (-Real.exp p)) - (1 - Real.exp (-Real.exp q))| ≤ |p - q| := by
  have h : ∀ x : ℝ, HasDerivAt (fun x => 1 - Real.exp (-Real.exp x)) (Real.exp (-Real.exp x) * Real.exp x) x := by
    intro x
    exact ((Real.hasDerivAt_exp x).fun_neg.exp.const_sub 1).congr_deriv (by ring)
  have := lip h (C := 1) (fun x => ?_) p q
  · rwa [one_mul] at this
  · have h0 := Real.exp_pos x
    rw [abs_of_pos (by positivity), Real.exp_neg]
    have := Real.add_one_le_exp (Real.exp x)
    rw [inv_mul_le_iff₀ (Real.exp_pos _)]
    linarith

theorem extreme_value (D : DoubleWithin M d) (hd : d ≤ 9e-16) {theta eta u : ℝ} (t0 : 1e-200 ≤ theta) (t1 : theta ≤ 1e200) (he : |eta| ≤ 1e200)
    (hR : M.Rep u) (h0 : 2 ^ (-52 : ℤ) ≤ u) (h1 : u < 1) :
    ∃ r, (extremeValue M (fin theta) (fin eta)).draw (fin u) = fin r ∧ |extremeValueLaw theta eta r - (1 - u)| ≤ 7e-14 + 1.2e-16 * (|eta| / theta) := by
  have hm : 0 < theta := lt_of_lt_of_le (by norm_num) t0
  have hu : 0 < u := lt_of_lt_of_le (by positivity) h0
  have hone := near_one D hR h1
  have hlb := log_bound (w := u) (le_trans (by norm_num) h0) (h1.le.trans (by norm_num))
  have hl1 : 2 ^ (-53 : ℤ) ≤ -Real.log u := by
    have := Real.log_le_sub_one_of_pos hu
    linarith
  have hl0 : Real.log u < 0 := Real.log_neg hu h1
  rw [abs_of_neg hl0] at hlb
  obtain ⟨l, el, hl⟩ := D.ln u hu (by rw [abs_of_neg hl0]; exact hlb.trans (by norm_num))
  rw [abs_of_neg hl0] at hl
  change _ ≤ _ + tiny at hl
  have ht : tiny ≤ 1e-16 * -Real.log u := by
    have := tiny_scale (theta := 1e-17) (by norm_num)
    norm_num at hl1
    linarith
  have hl' : |-l - -Real.log u| ≤ 1e-15 * -Real.log u := by
    rw [show -l - -Real.log u = -(l - Real.log u) by ring, abs_neg]
    have : d * -Real.log u ≤ 9e-16 * -Real.log u := mul_le_mul_of_nonneg_right hd (by linarith)
    linarith
  obtain ⟨hn0, hnl⟩ := log_rel (by linarith) hl' (by norm_num)
  obtain ⟨n1, n2⟩ := abs_le.1 hl'
  obtain ⟨q, eq, hq, hqb⟩ := ln_val D hd (w := -l) (le_trans (by norm_num) (half_le hl1 (by linarith) hl' (by norm_num))) (by norm_num; linarith)
  obtain ⟨m, em, hm'⟩ := scale D (q := q) t0 t1 (by linarith)
  obtain ⟨r, er, hr⟩ := shift D t0 t1 he (q := q) (by linarith) hm'
  refine ⟨r, ?_, ?_⟩
  · show M.add (fin eta) (M.mul (fin theta) (M.ln (-M.ln (fin u)))) = _
    rw [el, neg_fin, eq, Machine.mul_fin, em, Machine.add_fin, er]
  · have e2 : 1 - u = 1 - Real.exp (-Real.exp (Real.log (-Real.log u))) := by
      rw [Real.exp_log (by linarith), neg_neg, Real.exp_log hu]
    unfold extremeValueLaw
    rw [e2]
    refine (extreme_lip _ _).trans ?_
    obtain ⟨b1, b2⟩ := abs_le.1 hnl
    obtain ⟨c1, c2⟩ := abs_le.1 hq
    obtain ⟨d1, d2⟩ := abs_le.1 hr
    exact abs_le.2 ⟨by linarith, by linarith⟩

theorem rayleigh_lip (p q : ℝ) : |(1 - Real.exp (-p ^ 2 / 2)) - (1 - Real.exp (-q ^ 2 / 2))| ≤ |p - q| := by
  have h : ∀ x : ℝ, HasDerivAt (fun x => 1 - Real.exp (-x ^ 2 / 2)) (x * Real.exp (-x ^ 2 / 2)) x := by
    intro x
    have h1 : HasDerivAt (fun x : ℝ => -x ^ 2 / 2) (-x) x := by
      exact (((hasDerivAt_pow 2 x).fun_neg).div_const 2).congr_deriv (by norm_num; ring)
    exact ((h1.exp).const_sub 1).congr_deriv (by ring)
  have := lip h (C := 1) (fun x => ?_) p q
  · rwa [one_mul] at this
  · rw [abs_mul, abs_of_pos (Real.exp_pos _), neg_div, Real.exp_neg, ← div_eq_mul_inv, div_le_one (Real.exp_pos _)]
    have := Real.add_one_le_exp (x ^ 2 / 2)
    rw [← sq_abs] at this ⊢
    nlinarith [sq_nonneg (|x| - 1)]

theorem sqrt_rel {v w ρ : ℝ} (hv : 0 ≤ v) (h : |w - v| ≤ ρ * v) (hρ : ρ ≤ 1) : |Real.sqrt w - Real.sqrt v| ≤ ρ * Real.sqrt v := by
  rcases hv.eq_or_lt with rfl | hv
  · rw [mul_zero] at h
    have : w = 0 := by simpa using h
    simp [this]
  obtain ⟨h1, h2⟩ := abs_le.1 h
  have hw : 0 ≤ w := by nlinarith
  have s := Real.sqrt_pos.2 hv
  have a : |Real.sqrt w - Real.sqrt v| * (Real.sqrt w + Real.sqrt v) = |w - v| := by
    rw [← abs_of_nonneg (show 0 ≤ Real.sqrt w + Real.sqrt v by positivity), ← abs_mul]
    congr 1
    have := Real.mul_self_sqrt hw
    have := Real.mul_self_sqrt hv.le
    linarith
  have b : |Real.sqrt w - Real.sqrt v| * Real.sqrt v ≤ ρ * v := by
    have : |Real.sqrt w - Real.sqrt v| * Real.sqrt v ≤ |Real.sqrt w - Real.sqrt v| * (Real.sqrt w + Real.sqrt v) :=
      mul_le_mul_of_nonneg_left (by linarith [Real.sqrt_nonneg w]) (abs_nonneg _)
    linarith
  have c : ρ * v = ρ * Real.sqrt v * Real.sqrt v := by rw [mul_assoc, Real.mul_self_sqrt hv.le]
  rw [c] at b
  exact le_of_mul_le_mul_right b s

theorem rayleigh_value (D : DoubleWithin M d) (hd : d ≤ 9e-16) {nu u : ℝ} (t0 : 1e-200 ≤ nu) (t1 : nu ≤ 1e200)
    (hR : M.Rep u) (h0 : 2 ^ (-52 : ℤ) ≤ u) (h1 : u < 1) :
    ∃ r, (rayleigh M (fin nu)).draw (fin u) = fin r ∧ |rayleighLaw nu r - u| ≤ 7e-14 := by
  have hm : 0 < nu := lt_of_lt_of_le (by norm_num) t0
  have hu : 0 < u := lt_of_lt_of_le (by positivity) h0
  have hone := near_one D hR h1
  obtain ⟨n, en, hn⟩ := rnd_near D (x := 1 - u) (le_trans (by norm_num) hone) (by norm_num; linarith)
  obtain ⟨hn0, hnl⟩ := log_rel (by linarith) hn (by norm_num)
  obtain ⟨n1, n2⟩ := abs_le.1 hn
  have p52 : (2 : ℝ) ^ (-52 : ℤ) = 1 / 2 ^ 52 := by norm_num
  have hn1 : n ≤ 1 - 9e-17 := by
    rw [p52] at h0
    have : (2.2e-16 : ℝ) ≤ 1 / 2 ^ 52 := by norm_num
    linarith
  have hlb := log_bound (w := n) (le_trans (by norm_num) (half_le hone (by linarith) hn (by norm_num))) (le_trans (show n ≤ 1 by linarith) (by norm_num))
  have hl1 : 9e-17 ≤ -Real.log n := by
    have := Real.log_le_sub_one_of_pos hn0
    linarith
  have hl0 : Real.log n < 0 := by linarith
  rw [abs_of_neg hl0] at hlb
  obtain ⟨l, el, hl⟩ := D.ln n hn0 (by rw [abs_of_neg hl0]; exact hlb.trans (by norm_num))
  rw [abs_of_neg hl0] at hl
  change _ ≤ _ + tiny at hl
  have ht : tiny ≤ 1e-17 * -Real.log n := by
    have := tiny_scale (theta := 1e-16) (by norm_num)
    linarith
  have hd' : d * -Real.log n ≤ 9e-16 * -Real.log n := mul_le_mul_of_nonneg_right hd (by linarith)
  obtain ⟨l1, l2⟩ := abs_le.1 hl
  obtain ⟨k, ek, hk⟩ := rnd_near D (x := -2 * l) (le_trans (by norm_num) (show (1e-17 : ℝ) ≤ -2 * l by linarith)) (by norm_num; linarith)
  obtain ⟨k1, k2⟩ := abs_le.1 hk
  have hkr : |k - 2 * -Real.log n| ≤ 1.2e-15 * (2 * -Real.log n) := abs_le.2 ⟨by linarith, by linarith⟩
  have hk0 : 0 ≤ k := by linarith
  obtain ⟨q, eq, hq⟩ := D.sqrt k hk0 (by linarith)
  change _ ≤ _ + tiny at hq
  have hsq := sqrt_rel (by linarith) hkr (by norm_num)
  have hs9 : Real.sqrt (2 * -Real.log n) ≤ 9 := by
    rw [show (9 : ℝ) = Real.sqrt 81 by rw [show (81 : ℝ) = 9 ^ 2 by norm_num, Real.sqrt_sq (by norm_num)]]
    exact Real.sqrt_le_sqrt (by linarith)
  obtain ⟨s1, s2⟩ := abs_le.1 hsq
  have hd'' : d * |Real.sqrt k| ≤ 9e-16 * 10 := by
    rw [abs_of_nonneg (Real.sqrt_nonneg k)]
    exact mul_le_mul hd (by linarith) (Real.sqrt_nonneg _) (by norm_num)
  have ht2 := tiny_le
  have hq2 : |q - Real.sqrt (2 * -Real.log n)| ≤ 2e-14 := by
    obtain ⟨q1, q2⟩ := abs_le.1 hq
    exact abs_le.2 ⟨by linarith, by linarith⟩
  obtain ⟨q1, q2⟩ := abs_le.1 hq2
  have hsn := Real.sqrt_nonneg (2 * -Real.log n)
  obtain ⟨r, er, hr⟩ := scale D (q := q) t0 t1 (abs_le.2 ⟨by linarith, by linarith⟩)
  have hr' : |r / nu - q| ≤ 1.21e-14 := by
    rw [show r / nu - q = (r - nu * q) / nu by field_simp, abs_div, abs_of_pos hm, div_le_iff₀ hm]; exact hr
  refine ⟨r, ?_, ?_⟩
  · show Rounded.rayleighIcdf M (fin nu) (fin u) = _
    unfold Rounded.rayleighIcdf
    rw [zero_def, one_def, if_neg (by rw [fin_lt, fin_lt]; push Not; constructor <;> linarith), Machine.sub_fin, en, el, Machine.mul_fin, ek, eq, Machine.mul_fin, er]
  · have e : rayleighLaw nu r = 1 - Real.exp (-(max (r / nu) 0) ^ 2 / 2) := by
      unfold rayleighLaw
      split_ifs with h
      · rw [max_eq_right (div_nonpos_of_nonpos_of_nonneg h hm.le)]; simp
      · rw [max_eq_left (div_nonneg (not_le.1 h).le hm.le)]
        congr 2; field_simp
    have e2 : n = Real.exp (-(max (Real.sqrt (2 * -Real.log n)) 0) ^ 2 / 2) := by
      rw [max_eq_left hsn, Real.sq_sqrt (by linarith), show -(2 * -Real.log n) / 2 = Real.log n by ring, Real.exp_log hn0]
    have h3 : |rayleighLaw nu r - (1 - n)| ≤ 4e-14 := by
      rw [e]
      conv_lhs => rw [e2]
      refine (rayleigh_lip _ _).trans ((abs_max_sub_max_le_abs _ _ _).trans ?_)
      obtain ⟨r1, r2⟩ := abs_le.1 hr'
      exact abs_le.2 ⟨by linarith, by linarith⟩
    obtain ⟨a1, a2⟩ := abs_le.1 h3
    exact abs_le.2 ⟨by linarith, by linarith⟩

theorem PhiR_lip (p q : ℝ) : |PhiR p - PhiR q| ≤ |p - q| := by
  have := lip hasDerivAt_PhiR (C := 1) (fun x => ?_) p q
  · rwa [one_mul] at this
  · have h1 : Real.exp (-x * x / 2) ≤ 1 := Real.exp_le_one_iff.2 (by nlinarith [mul_self_nonneg x])
    have h2 : 1 ≤ Real.sqrt (2 * Real.pi) := by
      rw [Real.one_le_sqrt]; linarith [Real.pi_gt_three]
    have h3 : 1 / Real.sqrt (2 * Real.pi) ≤ 1 := by rw [div_le_one (by linarith)]; exact h2
    rw [abs_of_pos (phiR_pos x), phiR]
    calc _ ≤ (1 : ℝ) * 1 := mul_le_mul h3 h1 (Real.exp_pos _).le (by norm_num)
      _ = 1 := one_mul 1

theorem normal_value (D : DoubleWithin M d) (hd : d ≤ 9e-16) {c k e mu sigma u : ℝ} (t0 : 1e-200 ≤ sigma) (t1 : sigma ≤ 1e200) (he : |mu| ≤ 1e200)
    (hR : M.Rep u) (h0 : 2 ^ (-52 : ℤ) ≤ u) (h1 : u < 1) :
    ∃ r, (Rounded.normal M (invPhiDouble M) c k e (fin mu) (fin sigma)).draw (fin u) = fin r ∧
      |normalLaw mu sigma r - u| ≤ 4e-12 + 1.2e-16 * (|mu| / sigma) := by
  have hm : 0 < sigma := lt_of_lt_of_le (by norm_num) t0
  have hu : 0 < u := lt_of_lt_of_le (by positivity) h0
  have h0' : (2 : ℝ)⁻¹ ^ 1022 ≤ u := by
    refine le_trans ?_ h0
    rw [inv_pow, ← zpow_natCast, ← zpow_neg]
    exact zpow_le_zpow_right₀ one_le_two (by norm_num)
  obtain ⟨y, ey, hy, h2, h3⟩ := invPhi_value D hd hR h0' h1
  have hacc : |PhiR y - u| ≤ 3.001e-12 := by
    rcases le_total u (1 / 2) with h | h
    · exact (h2 h).trans (by linarith)
    · exact (h3 h).trans (by linarith)
  obtain ⟨m, em, hm'⟩ := scale D (q := y) t0 t1 (by linarith)
  obtain ⟨r, er, hr⟩ := shift D t0 t1 he (q := y) (by linarith) hm'
  refine ⟨r, ?_, ?_⟩
  · show M.add (M.mul (invPhiDouble M (fin u)) (fin sigma)) (fin mu) = _
    rw [ey, Machine.mul_fin, mul_comm, em, Machine.add_fin, add_comm, er]
  · unfold normalLaw
    rw [Trng.stdNormal_eq]
    have := PhiR_lip ((r - mu) / sigma) y
    obtain ⟨a1, a2⟩ := abs_le.1 hacc
    obtain ⟨b1, b2⟩ := abs_le.1 (this.trans hr)
    exact abs_le.2 ⟨by linarith, by linarith⟩

/-! ### The laws are distribution functions -/

theorem exponential_law {mu : ℝ} (hm : 0 < mu) : Monotone (exponentialLaw mu) ∧ ∀ t, 0 ≤ exponentialLaw mu t ∧ exponentialLaw mu t ≤ 1 := by
  have h : ∀ t, 0 < t → 0 ≤ 1 - Real.exp (-t / mu) := fun t ht => by
    have := Real.exp_le_one_iff.2 (show -t / mu ≤ 0 by rw [neg_div]; linarith [div_pos ht hm])
    linarith
  refine ⟨fun s t hst => ?_, fun t => ?_⟩
  · unfold exponentialLaw
    split_ifs with a b
    · exact le_rfl
    · exact h t (not_le.1 b)
    · exact absurd (hst.trans ‹t ≤ 0›) a
    · have : Real.exp (-t / mu) ≤ Real.exp (-s / mu) := Real.exp_le_exp.2 (div_le_div_of_nonneg_right (by linarith) hm.le)
      linarith
  · unfold exponentialLaw
    split_ifs with a
    · exact ⟨le_rfl, zero_le_one⟩
    · exact ⟨h t (not_le.1 a), by linarith [Real.exp_pos (-t / mu)]⟩

theorem twosided_law {mu : ℝ} (hm : 0 < mu) : Monotone (twosidedLaw mu) ∧ ∀ t, 0 ≤ twosidedLaw mu t ∧ twosidedLaw mu t ≤ 1 := by
  have h : ∀ t, t ≤ 0 → Real.exp (t / mu) ≤ 1 := fun t ht => Real.exp_le_one_iff.2 (div_nonpos_of_nonpos_of_nonneg ht hm.le)
  refine ⟨fun s t hst => ?_, fun t => ?_⟩
  · unfold twosidedLaw
    split_ifs with a b b
    · have : Real.exp (s / mu) ≤ Real.exp (t / mu) := Real.exp_le_exp.2 (div_le_div_of_nonneg_right hst hm.le)
      linarith
    · linarith [h s a, h (-t) (by linarith)]
    · exact absurd (hst.trans b) a
    · have : Real.exp (-t / mu) ≤ Real.exp (-s / mu) := Real.exp_le_exp.2 (div_le_div_of_nonneg_right (by linarith) hm.le)
      linarith
  · unfold twosidedLaw
    split_ifs with a
    · exact ⟨by positivity, by linarith [h t a]⟩
    · exact ⟨by linarith [h (-t) (by linarith)], by linarith [Real.exp_pos (-t / mu)]⟩

theorem logistic_law {theta eta : ℝ} (ht : 0 < theta) : Monotone (logisticLaw theta eta) ∧ ∀ t, 0 ≤ logisticLaw theta eta t ∧ logisticLaw theta eta t ≤ 1 := by
  refine ⟨fun s t hst => ?_, fun t => ⟨by unfold logisticLaw; positivity, ?_⟩⟩
  · unfold logisticLaw
    have : Real.exp (-(t - eta) / theta) ≤ Real.exp (-(s - eta) / theta) := Real.exp_le_exp.2 (div_le_div_of_nonneg_right (by linarith) ht.le)
    exact one_div_le_one_div_of_le (by positivity) (by linarith)
  · unfold logisticLaw
    rw [div_le_one (by positivity)]
    linarith [Real.exp_pos (-(t - eta) / theta)]

theorem extreme_law {theta eta : ℝ} (ht : 0 < theta) :
    Monotone (extremeValueLaw theta eta) ∧ ∀ t, 0 ≤ extremeValueLaw theta eta t ∧ extremeValueLaw theta eta t ≤ 1 := by
  refine ⟨fun s t hst => ?_, fun t => ⟨?_, ?_⟩⟩
  · unfold extremeValueLaw
    have : Real.exp ((s - eta) / theta) ≤ Real.exp ((t - eta) / theta) := Real.exp_le_exp.2 (div_le_div_of_nonneg_right (by linarith) ht.le)
    have := Real.exp_le_exp.2 (neg_le_neg this)
    linarith
  · unfold extremeValueLaw
    have := Real.exp_le_one_iff.2 (show -Real.exp ((t - eta) / theta) ≤ 0 by linarith [Real.exp_pos ((t - eta) / theta)])
    linarith
  · unfold extremeValueLaw
    linarith [Real.exp_pos (-Real.exp ((t - eta) / theta))]

theorem rayleigh_law {nu : ℝ} (hn : 0 < nu) : Monotone (rayleighLaw nu) ∧ ∀ t, 0 ≤ rayleighLaw nu t ∧ rayleighLaw nu t ≤ 1 := by
  have h : ∀ t, 0 ≤ 1 - Real.exp (-t ^ 2 / (2 * nu ^ 2)) := fun t => by
    have := Real.exp_le_one_iff.2 (show -t ^ 2 / (2 * nu ^ 2) ≤ 0 by
      rw [neg_div]; have : 0 ≤ t ^ 2 / (2 * nu ^ 2) := by positivity
      linarith)
    linarith
  refine ⟨fun s t hst => ?_, fun t => ?_⟩
  · unfold rayleighLaw
    split_ifs with a b b
    · exact le_rfl
    · exact h t
    · exact absurd (hst.trans b) a
    · have : Real.exp (-t ^ 2 / (2 * nu ^ 2)) ≤ Real.exp (-s ^ 2 / (2 * nu ^ 2)) := Real.exp_le_exp.2 (div_le_div_of_nonneg_right (by nlinarith) (by positivity))
      linarith
  · unfold rayleighLaw
    split_ifs with a
    · exact ⟨le_rfl, zero_le_one⟩
    · exact ⟨h t, by linarith [Real.exp_pos (-t ^ 2 / (2 * nu ^ 2))]⟩

theorem normal_law {mu sigma : ℝ} (hs : 0 < sigma) : Monotone (normalLaw mu sigma) ∧ ∀ t, 0 ≤ normalLaw mu sigma t ∧ normalLaw mu sigma t ≤ 1 := by
  refine ⟨fun s t hst => ?_, fun t => ?_⟩
  · unfold normalLaw
    rw [Trng.stdNormal_eq, Trng.stdNormal_eq]
    exact strictMono_PhiR.monotone (div_le_div_of_nonneg_right (by linarith) hs.le)
  · unfold normalLaw
    rw [Trng.stdNormal_eq]
    exact ⟨(PhiR_pos _).le, (PhiR_lt_one _).le⟩

end Trng.PeriodLaw
