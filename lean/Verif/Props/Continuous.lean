import Verif.Proofs.ClosedForms2

/-! C59, C60, C61, C62, C63: the continuous distributions with closed forms, in exact arithmetic.  The relations that the
theorems assert are defined in Spec/Continuous.lean. -/
namespace Trng
open XR MeasureTheory Filter Topology Set
open Classical

/-! ### C59: icdf is the inverse of cdf -/

theorem C59_exponential {mu : ℝ} (h : 0 < mu) : Spec.InverseCdf (exponentialDist (fin mu)) := (exponential_data h).inverseCdf
theorem C59_twosided_exponential {mu : ℝ} (h : 0 < mu) : Spec.InverseCdf (twosidedExponentialDist (fin mu)) := (twosided_data h).inverseCdf
theorem C59_uniform01 : Spec.InverseCdf (uniform01Dist) := (uniform01_data).inverseCdf
theorem C59_uniform {a b : ℝ} (h : a < b) : Spec.InverseCdf (uniformDist (fin a) (fin b)) := (uniform_data h).inverseCdf
theorem C59_tent {m d : ℝ} (h : 0 < d) : Spec.InverseCdf (tentDist (fin m) (fin d)) := (tent_data h).inverseCdf
theorem C59_pareto {gamma theta : ℝ} (hg : 0 < gamma) (ht : 0 < theta) : Spec.InverseCdf (paretoDist (fin gamma) (fin theta)) := (pareto_data hg ht).inverseCdf
theorem C59_weibull {theta beta : ℝ} (ht : 0 < theta) (hb : 0 < beta) : Spec.InverseCdf (weibullDist (fin theta) (fin beta)) := (weibull_data ht hb).inverseCdf
theorem C59_logistic {theta eta : ℝ} (h : 0 < theta) : Spec.InverseCdf (logisticDist (fin theta) (fin eta)) := (logistic_data h).inverseCdf
theorem C59_extreme_value {theta eta : ℝ} (h : 0 < theta) : Spec.InverseCdf (extremeValueDist (fin theta) (fin eta)) := (extreme_data h).inverseCdf
theorem C59_cauchy {theta eta : ℝ} (h : 0 < theta) : Spec.InverseCdf (cauchyDist (fin theta) (fin eta)) := (cauchy_data h).inverseCdf
theorem C59_rayleigh {nu : ℝ} (h : 0 < nu) : Spec.InverseCdf (rayleighDist (fin nu)) := (rayleigh_data h).inverseCdf
/-- powerlaw_dist; its distribution function is only wrong below the support. -/
theorem C59_powerlaw {gamma theta : ℝ} (hg : 0 < gamma) (ht : 0 < theta) : Spec.InverseCdf (powerlawDist (fin gamma) (fin theta)) := by
  have h := (powerlaw_data hg ht).inverseCdf
  have e : ∀ y : ℝ, theta < y → (powerlawClipped (fin gamma) (fin theta)).cdf (fin y) = (powerlawDist (fin gamma) (fin theta)).cdf (fin y) := by
    intro y hy
    simp only [powerlawClipped]
    rw [if_neg (fun hc => absurd ((fin_le _ _).1 hc) (not_le.2 hy))]
  constructor
  · intro u h0 h1
    obtain ⟨y, a, b, c, d⟩ := h.1 u h0 h1
    refine ⟨y, a, b, c, ?_⟩
    rw [← d, e y ((fin_lt _ _).1 b)]
  · intro x h1 h2
    have := h.2 x h1 h2
    rwa [e x ((fin_lt _ _).1 h1)] at this

/-- For instance: the median of an exponential distribution. -/
example : (exponentialDist (fin 3)).icdf (fin (1 / 2)) = fin (-3 * Real.log (1 - 1 / 2)) ∧
    (exponentialDist (fin 3)).cdf (fin (-3 * Real.log (1 - 1 / 2))) = fin (1 / 2) := by
  obtain ⟨y, h1, -, -, h2⟩ := (C59_exponential (mu := 3) (by norm_num)).1 (1 / 2) (by norm_num) (by norm_num)
  have e := (exponential_data (mu := 3) (by norm_num)).icdf (1 / 2) (by norm_num) (by norm_num)
  rw [h1, fin_inj] at e
  rw [← e]
  exact ⟨h1, h2⟩
example : Spec.InverseCdf (weibullDist (fin 2) (fin (1 / 2))) := C59_weibull (by norm_num) (by norm_num)

/-! ### C60: pdf is the derivative of cdf, cdf the integral of pdf -/

theorem C60_exponential {mu : ℝ} (h : 0 < mu) : Spec.HasDensity (exponentialDist (fin mu)) {0} := (exponential_data h).hasDensity
theorem C60_twosided_exponential {mu : ℝ} (h : 0 < mu) : Spec.HasDensity (twosidedExponentialDist (fin mu)) ∅ := (twosided_data h).hasDensity
theorem C60_uniform01 : Spec.HasDensity (uniform01Dist) {0, 1} := (uniform01_data).hasDensity
theorem C60_uniform {a b : ℝ} (h : a < b) : Spec.HasDensity (uniformDist (fin a) (fin b)) {a, b} := (uniform_data h).hasDensity
theorem C60_tent {m d : ℝ} (h : 0 < d) : Spec.HasDensity (tentDist (fin m) (fin d)) {m - d, m + d} := (tent_data h).hasDensity
theorem C60_pareto {gamma theta : ℝ} (hg : 0 < gamma) (ht : 0 < theta) : Spec.HasDensity (paretoDist (fin gamma) (fin theta)) {0} := (pareto_data hg ht).hasDensity
theorem C60_weibull {theta beta : ℝ} (ht : 0 < theta) (hb : 0 < beta) : Spec.HasDensity (weibullDist (fin theta) (fin beta)) {0} := (weibull_data ht hb).hasDensity
theorem C60_logistic {theta eta : ℝ} (h : 0 < theta) : Spec.HasDensity (logisticDist (fin theta) (fin eta)) ∅ := (logistic_data h).hasDensity
theorem C60_extreme_value {theta eta : ℝ} (h : 0 < theta) : Spec.HasDensity (extremeValueDist (fin theta) (fin eta)) ∅ := (extreme_data h).hasDensity
theorem C60_cauchy {theta eta : ℝ} (h : 0 < theta) : Spec.HasDensity (cauchyDist (fin theta) (fin eta)) ∅ := (cauchy_data h).hasDensity
theorem C60_rayleigh {nu : ℝ} (h : 0 < nu) : Spec.HasDensity (rayleighDist (fin nu)) ∅ := (rayleigh_data h).hasDensity
/-- powerlaw_dist: on the support the density is the derivative of the distribution function, which is its integral. -/
theorem C60_powerlaw_partial {gamma theta : ℝ} (hg : 0 < gamma) (ht : 0 < theta) : ∃ F f : ℝ → ℝ,
    (∀ x, theta ≤ x → (powerlawDist (fin gamma) (fin theta)).cdf (fin x) = fin (F x)) ∧
    (∀ x, x ≠ theta → (powerlawDist (fin gamma) (fin theta)).pdf (fin x) = fin (f x)) ∧
    (∀ x, 0 ≤ f x) ∧ (∀ x, theta < x → HasDerivAt F (f x) x) ∧
    (∀ x, IntegrableOn f (Iic x)) ∧ (∀ x, theta ≤ x → ∫ t in Iic x, f t = F x) := by
  have h := powerlaw_data hg ht
  refine ⟨_, _, fun x hx => ?_, h.pdf, fun x => ?_, fun x hx => h.deriv x (ne_of_gt hx), h.integrable_Iic, fun x _ => h.integral_Iic x⟩
  · rw [← h.cdf x]
    simp only [powerlawClipped]
    rcases eq_or_lt_of_le hx with h0 | h0
    · rw [if_pos ((fin_le _ _).2 h0.ge), powerlaw_cdf ht (ht.trans_le hx), ← h0, div_self ht.ne', Real.one_rpow]; simp
    · rw [if_neg (fun hc => absurd ((fin_le _ _).1 hc) (not_le.2 h0))]
  · by_cases hx : x = theta
    · rw [hx]
      rw [if_neg (lt_irrefl _), div_self ht.ne', Real.one_rpow]; positivity
    · exact h.nonneg x hx

/-- Below the support the density of powerlaw_dist is 0 but its distribution function is not constant: with gamma = 1 and
theta = 1 its derivative at 1/2 is 4. -/
theorem C60_powerlaw_wrong : (powerlawDist 1 1).pdf (fin (1 / 2)) = fin 0 ∧ ∃ F : ℝ → ℝ, (∀ x, 0 < x → (powerlawDist 1 1).cdf (fin x) = fin (F x)) ∧
    HasDerivAt F 4 (1 / 2) := by
  constructor
  · have : fin (1 / 2) < (1 : XR) := by
      rw [ofNat_fin, fin_lt]; norm_num
    simp only [powerlawDist, if_pos this]; simp
  · refine ⟨fun x => 1 - (x / 1) ^ (-1 : ℝ), fun x hx => ?_, ?_⟩
    · have := powerlaw_cdf (g := 1) (t := 1) one_pos hx
      simpa using this
    · have h1 : HasDerivAt (fun y : ℝ => y / 1) (1 / 1) (1 / 2) := (hasDerivAt_id _).div_const 1
      refine ((h1.rpow_const (p := -1) (Or.inl (by norm_num))).const_sub 1).congr_deriv ?_
      rw [show (-1 : ℝ) - 1 = ((-2 : ℤ) : ℝ) by norm_num, Real.rpow_intCast]
      norm_num

example : Spec.HasDensity (logisticDist (fin 2) (fin 5)) ∅ := C60_logistic (by norm_num)
example : (rayleighDist (fin 1)).pdf (fin 1) = fin (Real.exp (-1 / 2)) := by
  have := (rayleigh_data (n := 1) one_pos).pdf 1 (by simp)
  rw [this]; norm_num

/-! ### C61: cdf is a probability -/

theorem C61_exponential {mu : ℝ} (h : 0 < mu) : Spec.IsCdf (exponentialDist (fin mu)) := by
  refine (exponential_data h).isCdf ?_ ?_
  · have e : ninf ≤ (0 : XR) := trivial
    simp only [exponentialDist, if_pos e]
  · have e : ¬ pinf ≤ (0 : XR) := id
    simp only [exponentialDist, if_neg e, neg_pinf, ninf_div_fin h.le]; simp
theorem C61_twosided_exponential {mu : ℝ} (h : 0 < mu) : Spec.IsCdf (twosidedExponentialDist (fin mu)) := by
  refine (twosided_data h).isCdf ?_ ?_
  · have e : ninf ≤ (0 : XR) := trivial
    simp only [twosidedExponentialDist, if_pos e, ninf_div_fin h.le]
    show fin 0 / fin ((2 : ℕ) : ℝ) = _
    rw [fin_div (by norm_num)]; simp
  · have e : ¬ pinf ≤ (0 : XR) := id
    simp only [twosidedExponentialDist, if_neg e, neg_pinf, ninf_div_fin h.le]
    show 1 - fin 0 / fin ((2 : ℕ) : ℝ) = _
    rw [fin_div (by norm_num)]; simp
theorem C61_uniform01 : Spec.IsCdf (uniform01Dist) := by
  refine (uniform01_data).isCdf ?_ ?_
  · have e : ninf < (0 : XR) := trivial
    simp only [uniform01Dist, if_pos e]
  · have e : ¬ pinf < (0 : XR) := id
    have e2 : (1 : XR) ≤ pinf := trivial
    simp only [uniform01Dist, if_neg e, if_pos e2]
theorem C61_uniform {a b : ℝ} (h : a < b) : Spec.IsCdf (uniformDist (fin a) (fin b)) := by
  refine (uniform_data h).isCdf ?_ ?_
  · simp only [uniformDist, if_pos (ninf_lt_fin a)]
  · simp only [uniformDist, if_neg (not_pinf_lt_fin a), if_pos (fin_le_pinf b)]
theorem C61_tent {m d : ℝ} (h : 0 < d) : Spec.IsCdf (tentDist (fin m) (fin d)) := by
  refine (tent_data h).isCdf ?_ ?_
  · have e : ninf - fin m ≤ -fin d := trivial
    simp only [tentDist]
    rw [if_pos e]
  · simp only [tentDist]
    rw [if_neg (show ¬ pinf - fin m ≤ -fin d from id), if_neg (show ¬ pinf - fin m ≤ (0 : XR) from id), if_neg (show ¬ pinf - fin m < fin d from id)]
theorem C61_pareto {gamma theta : ℝ} (hg : 0 < gamma) (ht : 0 < theta) : Spec.IsCdf (paretoDist (fin gamma) (fin theta)) := by
  refine (pareto_data hg ht).isCdf ?_ ?_
  · have e : ninf ≤ (0 : XR) := trivial
    simp only [paretoDist, if_pos e]
  · have e : ¬ pinf ≤ (0 : XR) := id
    have e2 : (1 : XR) + pinf = pinf := rfl
    simp only [paretoDist, if_neg e, pinf_div_fin ht.le, e2, neg_fin, pow_pinf_neg (show -gamma < 0 by linarith)]; simp
theorem C61_weibull {theta beta : ℝ} (ht : 0 < theta) (hb : 0 < beta) : Spec.IsCdf (weibullDist (fin theta) (fin beta)) := by
  refine (weibull_data ht hb).isCdf ?_ ?_
  · have e : ninf ≤ (0 : XR) := trivial
    simp only [weibullDist, ninf_div_fin ht.le, if_pos e]
  · have e : ¬ pinf ≤ (0 : XR) := id
    simp only [weibullDist, pinf_div_fin ht.le, if_neg e, pow_pinf_pos hb]; simp
theorem C61_logistic {theta eta : ℝ} (h : 0 < theta) : Spec.IsCdf (logisticDist (fin theta) (fin eta)) := by
  refine (logistic_data h).isCdf ?_ ?_
  · simp only [logisticDist, ninf_sub_fin, ninf_div_fin h.le, abs_ninf, neg_pinf, exp_ninf, if_neg (show ¬ fin eta ≤ ninf from id)]
    show fin 0 / fin (((1 : ℕ) : ℝ) + 0) = _
    rw [fin_div (by norm_num)]; simp
  · simp only [logisticDist, pinf_sub_fin, pinf_div_fin h.le, abs_pinf, neg_pinf, exp_ninf, if_pos (fin_le_pinf eta)]
    show fin ((1 : ℕ) : ℝ) / fin (((1 : ℕ) : ℝ) + 0) = _
    rw [fin_div (by norm_num)]; simp
theorem C61_extreme_value {theta eta : ℝ} (h : 0 < theta) : Spec.IsCdf (extremeValueDist (fin theta) (fin eta)) := by
  refine (extreme_data h).isCdf ?_ ?_
  · simp only [extremeValueDist, ninf_sub_fin, ninf_div_fin h.le, exp_ninf]; simp
  · simp only [extremeValueDist, pinf_sub_fin, pinf_div_fin h.le, exp_pinf]; simp
theorem C61_cauchy {theta eta : ℝ} (h : 0 < theta) : Spec.IsCdf (cauchyDist (fin theta) (fin eta)) := by
  refine (cauchy_data h).isCdf ?_ ?_
  · simp only [cauchyDist, ninf_sub_fin, ninf_div_fin h.le, atan_ninf, half_eq]
    xr
    rw [fin_inj]; field_simp [Real.pi_ne_zero]; ring
  · simp only [cauchyDist, pinf_sub_fin, pinf_div_fin h.le, atan_pinf, half_eq]
    xr
    rw [fin_inj]; field_simp [Real.pi_ne_zero]; ring
theorem C61_rayleigh {nu : ℝ} (h : 0 < nu) : Spec.IsCdf (rayleighDist (fin nu)) := by
  refine (rayleigh_data h).isCdf ?_ ?_
  · have e : ninf ≤ (0 : XR) := trivial
    simp only [rayleighDist, if_pos e]
  · have e : ¬ pinf ≤ (0 : XR) := id
    have e2 : (2 : XR) * fin nu * fin nu = fin (2 * nu * nu) := by simp
    have e3 : ninf * pinf = ninf := rfl
    have e4 : 0 ≤ 2 * nu * nu := by positivity
    simp only [rayleighDist, if_neg e, neg_pinf, e2, e3, ninf_div_fin e4]; simp

/-- C61 is false for powerlaw_dist: with gamma = theta = 1 its distribution function is -1 at 1/2. -/
theorem C61_powerlaw_wrong : (powerlawDist 1 1).cdf (fin (1 / 2)) = fin (-1) := by
  have := powerlaw_cdf (g := 1) (t := 1) one_pos (show (0 : ℝ) < 1 / 2 by norm_num)
  rw [show (powerlawDist 1 1) = powerlawDist (fin 1) (fin 1) by simp, this, fin_inj, show (-1 : ℝ) = ((-1 : ℤ) : ℝ) by norm_num, Real.rpow_intCast]
  norm_num

/-- Outside (0, theta) it is right. -/
theorem C61_powerlaw_partial {gamma theta : ℝ} (hg : 0 < gamma) (ht : 0 < theta) : ∃ F : ℝ → ℝ,
    (∀ x, x ≤ 0 ∨ theta ≤ x → (powerlawDist (fin gamma) (fin theta)).cdf (fin x) = fin (F x)) ∧ Monotone F ∧ (∀ x, 0 ≤ F x ∧ F x ≤ 1) ∧
    (∀ x, x ≤ theta → F x = 0) ∧ Tendsto F atTop (𝓝 1) ∧
    (powerlawDist (fin gamma) (fin theta)).cdf ninf = 0 ∧ (powerlawDist (fin gamma) (fin theta)).cdf pinf = 1 := by
  have h := powerlaw_data hg ht
  refine ⟨_, fun x hx => ?_, h.monotone, h.range, h.below, h.tendsto_top, ?_, ?_⟩
  · rw [← h.cdf x]
    simp only [powerlawClipped]
    rcases hx with h0 | h0
    · rw [if_pos ((fin_le _ _).2 (h0.trans ht.le))]
      have e : fin x ≤ (0 : XR) := by rw [ofNat_fin, fin_le]; simpa using h0
      simp only [powerlawDist, if_pos e]
    · rcases eq_or_lt_of_le h0 with h1 | h1
      · rw [if_pos ((fin_le _ _).2 h1.ge), powerlaw_cdf ht (ht.trans_le h0), ← h1, div_self ht.ne', Real.one_rpow]; simp
      · rw [if_neg (fun hc => absurd ((fin_le _ _).1 hc) (not_le.2 h1))]
  · have e : ninf ≤ (0 : XR) := trivial
    simp only [powerlawDist, if_pos e]
  · have e : ¬ pinf ≤ (0 : XR) := id
    simp only [powerlawDist, if_neg e, pinf_div_fin ht.le, neg_fin, pow_pinf_neg (show -gamma < 0 by linarith)]; simp

example : Spec.IsCdf (tentDist (fin 1) (fin 2)) := C61_tent (by norm_num)

/-! ### C62: samples follow the cdf -/

theorem no_ends {P : ℝ → Prop} : ∀ u ∈ Ioo (0 : ℝ) 1, u = 0 ∨ u = 1 → P u := by
  rintro u hu (h | h)
  · exact absurd hu.1 (by rw [h]; exact lt_irrefl _)
  · exact absurd hu.2 (by rw [h]; exact lt_irrefl _)

theorem Ioc_end {P : ℝ → Prop} (h : P 1) : ∀ u ∈ Ioc (0 : ℝ) 1, u = 0 ∨ u = 1 → P u := by
  rintro u hu (h0 | h1)
  · exact absurd hu.1 (by rw [h0]; exact lt_irrefl _)
  · rw [h1]; exact h

theorem Ico_end {P : ℝ → Prop} (h : P 0) : ∀ u ∈ Ico (0 : ℝ) 1, u = 0 ∨ u = 1 → P u := by
  rintro u hu (h0 | h1)
  · rw [h0]; exact h
  · exact absurd hu.2 (by rw [h1]; exact lt_irrefl _)

theorem C62_exponential {mu : ℝ} (h : 0 < mu) : Spec.Sampled (exponentialDist (fin mu)) := by
  refine (exponential_data h).sampled' Ioc_subset_Icc_self Ioo_subset_Ioc_self (fun u h0 h1 => ?_) (Ioc_end ⟨0, ?_, ?_, trivial⟩)
  · simp only [exponentialDist]
    rw [ln_fin h0, sub_sub_cancel]; xr
  · simp only [exponentialDist]
    rw [ln_fin one_pos, Real.log_one]; simp
  · simp [exponentialDist]
theorem C62_twosided_exponential {mu : ℝ} (h : 0 < mu) : Spec.Sampled (twosidedExponentialDist (fin mu)) :=
  (twosided_data h).sampled Ioo_subset_Icc_self subset_rfl (twosided_data h).icdf no_ends
theorem C62_uniform01 : Spec.Sampled uniform01Dist := by
  refine uniform01_data.sampled Ico_subset_Icc_self Ioo_subset_Ico_self (fun u _ _ => rfl) (Ico_end ⟨0, rfl, ?_, ?_⟩) <;> simp [uniform01Dist]
theorem C62_uniform {a b : ℝ} (h : a < b) : Spec.Sampled (uniformDist (fin a) (fin b)) := by
  refine (uniform_data h).sampled Ico_subset_Icc_self Ioo_subset_Ico_self (fun u _ _ => ?_) (Ico_end ⟨a, ?_, ?_, ?_⟩)
  · simp only [uniformDist]
    xr
    rw [mul_comm]
  · simp [uniformDist]
  · simp [uniformDist]
  · simpa [uniformDist] using h.le
theorem C62_tent {m d : ℝ} (h : 0 < d) : Spec.Sampled (tentDist (fin m) (fin d)) := by
  refine (tent_data h).sampled subset_rfl Ioo_subset_Icc_self (fun u h0 h1 => tentIcdf_fin h0.le h1.le) ?_
  have e1 : (tentDist (fin m) (fin d)).min = fin (m - d) := by simp [tentDist]
  have e2 : (tentDist (fin m) (fin d)).max = fin (m + d) := by simp [tentDist]
  rintro u hu (h0 | h1)
  · refine ⟨_, tentIcdf_fin hu.1 hu.2, ?_, ?_⟩
    · rw [e1, h0]; norm_num
    · rw [e2, h0]; norm_num; linarith
  · refine ⟨_, tentIcdf_fin hu.1 hu.2, ?_, ?_⟩
    · rw [e1, h1]; norm_num; linarith
    · rw [e2, h1]; norm_num; linarith
theorem C62_pareto {gamma theta : ℝ} (hg : 0 < gamma) (ht : 0 < theta) : Spec.Sampled (paretoDist (fin gamma) (fin theta)) := by
  refine (pareto_data hg ht).sampled' Ioo_subset_Icc_self subset_rfl (fun u h0 h1 => ?_) no_ends
  simp only [paretoDist]
  xr
  rw [fin_div hg.ne', pow_fin h0, sub_sub_cancel]; xr
theorem C62_weibull {theta beta : ℝ} (ht : 0 < theta) (hb : 0 < beta) : Spec.Sampled (weibullDist (fin theta) (fin beta)) := by
  refine (weibull_data ht hb).sampled' Ioc_subset_Icc_self Ioo_subset_Ioc_self (fun u h0 h1 => ?_) (Ioc_end ⟨0, ?_, ?_, trivial⟩)
  · have hl : Real.log u < 0 := Real.log_neg h0 h1
    simp only [weibullDist]
    xr
    rw [ln_fin h0, fin_div hb.ne']; xr
    rw [pow_fin (by linarith), show 1 + -(1 - u) = u by ring]; xr
  · simp only [weibullDist]
    xr
    rw [ln_fin one_pos, Real.log_one, fin_div hb.ne']; xr
    rw [neg_zero, pow_zero' (by positivity)]; simp
  · simp [weibullDist]
theorem C62_logistic {theta eta : ℝ} (h : 0 < theta) : Spec.Sampled (logisticDist (fin theta) (fin eta)) := by
  refine (logistic_data h).sampled Ioo_subset_Icc_self subset_rfl (fun u h0 h1 => ?_) no_ends
  simp only [logisticDist, logisticIcdf]
  xr
  rw [fin_div h0.ne', ln_fin (div_pos (by linarith) h0)]; xr
theorem C62_extreme_value {theta eta : ℝ} (h : 0 < theta) : Spec.Sampled (extremeValueDist (fin theta) (fin eta)) := by
  refine (extreme_data h).sampled' Ioo_subset_Icc_self subset_rfl (fun u h0 h1 => ?_) no_ends
  have hl : Real.log u < 0 := Real.log_neg h0 h1
  simp only [extremeValueDist]
  rw [ln_fin h0, sub_sub_cancel]; xr
  rw [ln_fin (by linarith)]; xr
theorem C62_cauchy {theta eta : ℝ} (h : 0 < theta) : Spec.Sampled (cauchyDist (fin theta) (fin eta)) :=
  (cauchy_data h).sampled Ioo_subset_Icc_self subset_rfl (fun _ h0 h1 => cauchyIcdf_fin h0 h1) no_ends
theorem C62_rayleigh {nu : ℝ} (h : 0 < nu) : Spec.Sampled (rayleighDist (fin nu)) :=
  (rayleigh_data h).sampled Ioo_subset_Icc_self subset_rfl (fun _ h0 h1 => rayleighIcdf_fin h0.le h1) no_ends

/-- powerlaw_dist: samples follow the distribution function wherever that is right. -/
theorem C62_powerlaw_partial {gamma theta : ℝ} (hg : 0 < gamma) (ht : 0 < theta) :
    let D := powerlawDist (fin gamma) (fin theta)
    (∀ u ∈ D.deviate, ∃ y : ℝ, D.draw (fin u) = fin y ∧ D.min ≤ fin y ∧ fin y ≤ D.max) ∧
    (∀ x : ℝ, x ≤ 0 ∨ theta ≤ x → ∃ p : ℝ, D.cdf (fin x) = fin p ∧ 0 ≤ p ∧
      volume {u : ℝ | u ∈ D.deviate ∧ D.draw (fin u) ≤ fin x} = ENNReal.ofReal p) := by
  have hd : ∀ u, 0 < u → (powerlawDist (fin gamma) (fin theta)).draw (fin u) = fin (theta * u ^ (-1 / gamma)) := fun u h0 => by
    simp only [powerlawDist]
    xr
    rw [fin_div hg.ne', pow_fin h0]; xr
  have h : Spec.Sampled (powerlawClipped (fin gamma) (fin theta)) := by
    refine (powerlaw_data hg ht).sampled' Ioc_subset_Icc_self Ioo_subset_Ioc_self (fun u h0 h1 => ?_) (Ioc_end ⟨theta, ?_, ?_, trivial⟩)
    · exact (hd u h0).trans (by rw [sub_sub_cancel])
    · exact (hd 1 one_pos).trans (by simp)
    · exact le_refl theta
  refine ⟨h.1, fun x hx => ?_⟩
  obtain ⟨p, h1, h2, h3⟩ := h.2 x
  refine ⟨p, ?_, h2, h3⟩
  obtain ⟨F, hF, -, -, hz, -⟩ := C61_powerlaw_partial hg ht
  rw [← h1, (powerlaw_data hg ht).cdf x]
  rcases hx with h0 | h0
  · have e : fin x ≤ (0 : XR) := by rw [ofNat_fin, fin_le]; simpa using h0
    rw [if_pos (h0.trans ht.le)]
    simp only [powerlawDist, if_pos e]; simp
  · rcases eq_or_lt_of_le h0 with h4 | h4
    · rw [if_pos h4.ge, powerlaw_cdf ht (ht.trans_le h0), ← h4, div_self ht.ne', Real.one_rpow, sub_self]
    · rw [if_neg (not_le.2 h4), powerlaw_cdf ht (ht.trans h4)]

example : volume {u : ℝ | u ∈ Ioc (0 : ℝ) 1 ∧ (exponentialDist (fin 1)).draw (fin u) ≤ fin 1} = ENNReal.ofReal (1 - Real.exp (-1 / 1)) := by
  obtain ⟨p, h1, -, h2⟩ := (C62_exponential (mu := 1) one_pos).2 1
  rw [(exponential_data one_pos).cdf, if_neg (by norm_num), fin_inj] at h1
  rw [h1]; exact h2

/-! ### C63: the domain of icdf -/

theorem icdf_outside {x : XR} (h : ¬(0 ≤ x ∧ x ≤ 1)) : x = nan ∨ (x < 0 ∨ 1 < x) ∧ (x ≤ 0 ∨ 1 ≤ x) ∧ (x < 0 ∨ 1 ≤ x) := by
  rcases XR.outside h with h | h | h
  · exact Or.inl h
  · refine Or.inr ⟨Or.inl h, Or.inl ?_, Or.inl h⟩
    cases x with
    | fin x => exact le_of_lt (α := ℝ) h
    | nan => exact absurd h (not_nan_lt _)
    | ninf => trivial
    | pinf => exact h.elim
  · have : (1 : XR) ≤ x := by
      cases x with
      | fin x => exact le_of_lt (α := ℝ) h
      | nan => exact absurd h (not_lt_nan _)
      | ninf => exact h.elim
      | pinf => trivial
    exact Or.inr ⟨Or.inr h, Or.inr this, Or.inr this⟩

theorem not_nan_out : ¬ (nan < (0 : XR) ∨ 1 < nan) ∧ ¬ (nan ≤ (0 : XR) ∨ 1 ≤ nan) ∧ ¬ (nan < (0 : XR) ∨ 1 ≤ nan) := by simp

/-- At the ends of [0,1] the checks pass. -/
theorem zero_in : ¬ ((0 : XR) < 0 ∨ (1 : XR) < 0) := by
  xr; norm_num
theorem one_in : ¬ ((1 : XR) < 0 ∨ (1 : XR) < 1) := by
  xr; norm_num
theorem zero_ne_one' : ¬ eq (0 : XR) 1 := by xr; norm_num
theorem one_ne_zero' : ¬ eq (1 : XR) 0 := by xr; norm_num
theorem one_eq_one' : eq (1 : XR) 1 := by xr
theorem zero_eq_zero' : eq (0 : XR) 0 := by xr

theorem C63_exponential (mu : ℝ) : Spec.IcdfDomain (exponentialDist (fin mu)) := by
  refine ⟨fun x hx => ?_, ?_, ?_⟩
  · rcases icdf_outside hx with rfl | ⟨h, -, -⟩
    · simp only [exponentialDist, if_neg not_nan_out.1, not_nan_eq, if_false]; simp
    · simp only [exponentialDist, if_pos h]
  · simp only [exponentialDist, if_neg zero_in, if_neg zero_ne_one']
    xr
    rw [sub_zero, ln_fin one_pos, Real.log_one]; simp
  · simp only [exponentialDist, if_neg one_in, if_pos one_eq_one']
theorem C63_twosided_exponential (mu : ℝ) : Spec.IcdfDomain (twosidedExponentialDist (fin mu)) := by
  refine ⟨fun x hx => ?_, ?_, ?_⟩
  · rcases icdf_outside hx with rfl | ⟨h, -, -⟩
    · simp only [twosidedExponentialDist, twosidedIcdf, if_neg not_nan_out.1, not_nan_eq, if_false, not_nan_lt]; simp
    · simp only [twosidedExponentialDist, twosidedIcdf, if_pos h]
  · simp only [twosidedExponentialDist, twosidedIcdf, if_neg zero_in, if_neg zero_ne_one', if_pos zero_eq_zero']; rfl
  · simp only [twosidedExponentialDist, twosidedIcdf, if_neg one_in, if_pos one_eq_one']
theorem C63_uniform01 : Spec.IcdfDomain uniform01Dist := by
  refine ⟨fun x hx => ?_, ?_, ?_⟩
  · rcases icdf_outside hx with rfl | ⟨h, -, -⟩
    · simp only [uniform01Dist, if_neg not_nan_out.1]
    · simp only [uniform01Dist, if_pos h]
  · simp only [uniform01Dist, if_neg zero_in]
  · simp only [uniform01Dist, if_neg one_in]
theorem C63_uniform (a b : ℝ) : Spec.IcdfDomain (uniformDist (fin a) (fin b)) := by
  refine ⟨fun x hx => ?_, ?_, ?_⟩
  · rcases icdf_outside hx with rfl | ⟨h, -, -⟩
    · simp only [uniformDist, if_neg not_nan_out.1]; simp
    · simp only [uniformDist, if_pos h]
  · simp only [uniformDist, if_neg zero_in]; simp
  · simp only [uniformDist, if_neg one_in]; simp
theorem C63_tent (m d : ℝ) : Spec.IcdfDomain (tentDist (fin m) (fin d)) := by
  have e0 : tentIcdf (fin m) (fin d) 0 = fin (m - d) := by
    have := tentIcdf_fin (m := m) (d := d) (le_refl (0 : ℝ)) zero_le_one
    rw [ofNat_fin, Nat.cast_zero, this, fin_inj]; norm_num; ring
  have e1 : tentIcdf (fin m) (fin d) 1 = fin (m + d) := by
    have := tentIcdf_fin (m := m) (d := d) zero_le_one (le_refl (1 : ℝ))
    rw [ofNat_fin, Nat.cast_one, this, fin_inj]; norm_num; ring
  refine ⟨fun x hx => ?_, ?_, ?_⟩
  · rcases icdf_outside hx with rfl | ⟨h, -, -⟩
    · simp only [tentDist, if_neg not_nan_out.1, tentIcdf, if_neg (not_nan_lt _)]; simp
    · simp only [tentDist, if_pos h]
  · simp only [tentDist, if_neg zero_in, e0]; simp
  · simp only [tentDist, if_neg one_in, e1]; simp
theorem C63_logistic (theta eta : ℝ) : Spec.IcdfDomain (logisticDist (fin theta) (fin eta)) := by
  refine ⟨fun x hx => ?_, ?_, ?_⟩
  · rcases icdf_outside hx with rfl | ⟨h, -, -⟩
    · simp only [logisticDist, logisticIcdf, if_neg not_nan_out.1, not_nan_eq, if_false]; simp
    · simp only [logisticDist, if_pos h]
  · simp only [logisticDist, if_neg zero_in, if_pos zero_eq_zero']
  · simp only [logisticDist, if_neg one_in, if_neg one_ne_zero', if_pos one_eq_one']
theorem C63_rayleigh {nu : ℝ} (h : 0 < nu) : Spec.IcdfDomain (rayleighDist (fin nu)) := by
  refine ⟨fun x hx => ?_, ?_, ?_⟩
  · rcases icdf_outside hx with rfl | ⟨h, -, -⟩
    · simp only [rayleighDist, rayleighIcdf, if_neg not_nan_out.1]; simp
    · simp only [rayleighDist, rayleighIcdf, if_pos h]
  · have := rayleighIcdf_fin (n := nu) (le_refl (0 : ℝ)) one_pos
    simp only [rayleighDist]
    rw [ofNat_fin, Nat.cast_zero, this]; simp
  · have e : (1 : XR) - 1 = fin 0 := by simp
    have e2 : (-2 : XR) * ninf = pinf := by
      show fin (-((2 : ℕ) : ℝ)) * ninf = pinf
      rw [fin_mul_ninf, infSign_pos (by norm_num)]
    simp only [rayleighDist, rayleighIcdf, if_neg one_in, e, ln_zero', e2, sqrt_pinf, fin_mul_pinf, infSign_pos h]

/-- pareto_dist, powerlaw_dist, extreme_value_dist and cauchy_dist reject 0 and 1, weibull_dist rejects 1. -/
theorem C63_pareto_partial {gamma theta : ℝ} (hg : 0 < gamma) : (∀ x : XR, ¬(0 ≤ x ∧ x ≤ 1) → (paretoDist (fin gamma) (fin theta)).icdf x = nan) := by
  intro x hx
  rcases icdf_outside hx with rfl | ⟨-, h, -⟩
  · have e : (-1 : XR) / fin gamma = fin (-1 / gamma) := by rw [ofNat_fin, neg_fin, fin_div hg.ne']; simp
    simp only [paretoDist, if_neg not_nan_out.2.1, not_nan_eq, if_false, sub_nan, e, pow_nan (show -1 / gamma ≠ 0 by positivity)]; simp
  · simp only [paretoDist, if_pos h]
theorem C63_powerlaw_partial {gamma theta : ℝ} (hg : 0 < gamma) :
    (∀ x : XR, ¬(0 ≤ x ∧ x ≤ 1) → (powerlawDist (fin gamma) (fin theta)).icdf x = nan) := by
  intro x hx
  rcases icdf_outside hx with rfl | ⟨-, h, -⟩
  · have e : (-1 : XR) / fin gamma = fin (-1 / gamma) := by rw [ofNat_fin, neg_fin, fin_div hg.ne']; simp
    simp only [powerlawDist, if_neg not_nan_out.2.1, not_nan_eq, if_false, sub_nan, e, pow_nan (show -1 / gamma ≠ 0 by positivity)]; simp
  · simp only [powerlawDist, if_pos h]
theorem C63_extreme_value_partial (theta eta : ℝ) :
    (∀ x : XR, ¬(0 ≤ x ∧ x ≤ 1) → (extremeValueDist (fin theta) (fin eta)).icdf x = nan) := by
  intro x hx
  rcases icdf_outside hx with rfl | ⟨-, h, -⟩
  · simp only [extremeValueDist, if_neg not_nan_out.2.1, not_nan_eq, if_false]; simp
  · simp only [extremeValueDist, if_pos h]
theorem C63_cauchy_partial (theta eta : ℝ) :
    (∀ x : XR, ¬(0 ≤ x ∧ x ≤ 1) → (cauchyDist (fin theta) (fin eta)).icdf x = nan) := by
  intro x hx
  rcases icdf_outside hx with rfl | ⟨-, h, -⟩
  · simp only [cauchyDist, cauchyIcdf, if_neg not_nan_out.2.1, not_nan_eq, if_false]; simp
  · simp only [cauchyDist, if_pos h]
theorem C63_weibull_partial {theta beta : ℝ} (hb : 0 < beta) :
    (∀ x : XR, ¬(0 ≤ x ∧ x ≤ 1) → (weibullDist (fin theta) (fin beta)).icdf x = nan) ∧ (weibullDist (fin theta) (fin beta)).icdf 0 = 0 := by
  have e : (1 : XR) / fin beta = fin (1 / beta) := by rw [ofNat_fin, fin_div hb.ne']; simp
  refine ⟨fun x hx => ?_, ?_⟩
  · rcases icdf_outside hx with rfl | ⟨-, -, h⟩
    · simp only [weibullDist, if_neg not_nan_out.2.2, neg_nan, ln1p, add_nan', ln_nan, e, pow_nan (show 1 / beta ≠ 0 by positivity)]; simp
    · simp only [weibullDist, if_pos h]
  · have h0 : ¬ ((0 : XR) < 0 ∨ (1 : XR) ≤ 0) := by xr; norm_num
    simp only [weibullDist, if_neg h0]
    rw [e, show ln1p (-0) = fin 0 by rw [ofNat_fin, neg_fin, ln1p_fin (by norm_num)]; norm_num, neg_fin, neg_zero, pow_zero' (by positivity)]
    simp

/-- C63 is false for these: at 0 and 1 the result is NaN instead of the end of the support. -/
theorem C63_ends_wrong (g t e : XR) :
    ((paretoDist g t).icdf 0 = nan ∧ (paretoDist g t).icdf 1 = nan) ∧ ((powerlawDist g t).icdf 0 = nan ∧ (powerlawDist g t).icdf 1 = nan) ∧
    ((extremeValueDist t e).icdf 0 = nan ∧ (extremeValueDist t e).icdf 1 = nan) ∧ ((cauchyDist t e).icdf 0 = nan ∧ (cauchyDist t e).icdf 1 = nan) ∧
    (weibullDist t g).icdf 1 = nan := by
  have h0 : (0 : XR) ≤ 0 ∨ (1 : XR) ≤ 0 := by xr; norm_num
  have h1 : (1 : XR) ≤ 0 ∨ (1 : XR) ≤ 1 := by xr; norm_num
  have h2 : (1 : XR) < 0 ∨ (1 : XR) ≤ 1 := by xr; norm_num
  simp only [paretoDist, powerlawDist, extremeValueDist, cauchyDist, weibullDist, if_pos h0, if_pos h1, if_pos h2, and_self]

example : (exponentialDist (fin 2)).icdf (fin (3 / 2)) = nan := by
  refine (C63_exponential 2).1 _ ?_
  xr; norm_num

end Trng
