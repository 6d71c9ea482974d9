import Verif.Proofs.ClosedForms

/-! The real functions behind the closed-form distributions, second part. -/
namespace Trng
open XR MeasureTheory Filter Topology Set
open Classical

theorem half_eq : (1 : XR) / 2 = fin (1 / 2) := by
  show fin ((1 : ℕ) : ℝ) / fin ((2 : ℕ) : ℝ) = _
  rw [fin_div (by norm_num)]; norm_num

/-! ### tent_dist -/

theorem tentIcdf_fin {m d u : ℝ} (h0 : 0 ≤ u) (h1 : u ≤ 1) : tentIcdf (fin m) (fin d) (fin u) =
    fin (if u < 1 / 2 then (-1 + Real.sqrt (2 * u)) * d + m else (1 - Real.sqrt (2 - 2 * u)) * d + m) := by
  rw [tentIcdf, half_eq]
  xr
  by_cases h : u < 1 / 2
  · rw [if_pos h, if_pos h, sqrt_fin (by linarith)]; xr
  · rw [if_neg h, if_neg h, sqrt_fin (by linarith)]; xr

theorem tent_data {m d : ℝ} (hd : 0 < d) : CdfData (tentDist (fin m) (fin d))
    (fun x => if x - m ≤ -d then 0 else if x - m ≤ 0 then (x - m + d) * (x - m + d) / (2 * d * d)
      else if x - m < d then 1 - (x - m - d) * (x - m - d) / (2 * d * d) else 1)
    (fun x => if x - m ≤ -d ∨ d ≤ x - m then 0 else if x - m < 0 then (1 + (x - m) / d) / d else (1 - (x - m) / d) / d)
    (fun u => if u < 1 / 2 then (-1 + Real.sqrt (2 * u)) * d + m else (1 - Real.sqrt (2 - 2 * u)) * d + m) {m - d, m + d} where
  cdf x := by
    simp only [tentDist]
    xr
    by_cases h : x - m ≤ -d
    · simp only [if_pos h]
    by_cases h2 : x - m ≤ 0
    · simp only [if_neg h, if_pos h2]; rw [fin_div (by positivity)]
    by_cases h3 : x - m < d
    · simp only [if_neg h, if_neg h2, if_pos h3]; rw [fin_div (by positivity)]; xr
    · simp only [if_neg h, if_neg h2, if_neg h3]
  pdf x _ := by
    simp only [tentDist]
    xr
    by_cases h : x - m ≤ -d ∨ d ≤ x - m
    · simp only [if_pos h]
    by_cases h2 : x - m < 0
    · simp only [if_neg h, if_pos h2]; rw [fin_div hd.ne']; xr; rw [fin_div hd.ne']
    · simp only [if_neg h, if_neg h2]; rw [fin_div hd.ne']; xr; rw [fin_div hd.ne']
  icdf u h0 h1 := by
    obtain ⟨h, -, -, -, -⟩ := icdf_ok h0 h1
    simp only [tentDist, if_neg h]
    exact tentIcdf_fin h0.le h1.le
  lower := Or.inr ⟨m - d, by simp [tentDist]⟩
  upper := Or.inr ⟨m + d, by simp [tentDist]⟩
  order := by simp [tentDist]; linarith
  below x h := by
    have hx : x ≤ m - d := by simpa [tentDist] using h
    exact if_pos (by linarith)
  above x h := by
    have hx : m + d ≤ x := by simpa [tentDist] using h
    rw [if_neg (by linarith), if_neg (by linarith), if_neg (by linarith)]
  mono x y h1 h2 h3 := by
    have hx : m - d < x := by simpa [tentDist] using h1
    have hy : y < m + d := by simpa [tentDist] using h3
    rw [if_neg (show ¬ x - m ≤ -d by linarith), if_neg (show ¬ y - m ≤ -d by linarith)]
    have hdd : 0 < 2 * d * d := by positivity
    by_cases hy0 : y - m ≤ 0
    · rw [if_pos hy0, if_pos (by linarith)]
      have h5 : 0 ≤ x - m + d := by linarith
      have h6 : 0 ≤ y - m + d := by linarith
      gcongr
    · rw [if_neg hy0, if_pos (by linarith : y - m < d)]
      by_cases hx0 : x - m ≤ 0
      · rw [if_pos hx0]
        have e1 : (x - m + d) * (x - m + d) / (2 * d * d) ≤ 1 / 2 := by
          rw [div_le_iff₀ hdd]; nlinarith
        have e2 : (y - m - d) * (y - m - d) / (2 * d * d) ≤ 1 / 2 := by
          rw [div_le_iff₀ hdd]; nlinarith
        linarith
      · rw [if_neg hx0, if_pos (by linarith : x - m < d)]
        have : (y - m - d) * (y - m - d) ≤ (x - m - d) * (x - m - d) := by nlinarith
        gcongr
  right u h0 h1 := by
    have hdd : (2 * d * d) ≠ 0 := by positivity
    by_cases h : u < 1 / 2
    · have s0 : 0 < Real.sqrt (2 * u) := Real.sqrt_pos.2 (by linarith)
      have s1 : Real.sqrt (2 * u) < 1 := by rw [Real.sqrt_lt' one_pos]; linarith
      have s2 : Real.sqrt (2 * u) * Real.sqrt (2 * u) = 2 * u := Real.mul_self_sqrt (by linarith)
      rw [if_pos h, add_sub_cancel_right, if_neg (by nlinarith), if_pos (by nlinarith), div_eq_iff hdd]
      linear_combination (d * d) * s2
    · have s0 : 0 < Real.sqrt (2 - 2 * u) := Real.sqrt_pos.2 (by linarith)
      have s1 : Real.sqrt (2 - 2 * u) ≤ 1 := Real.sqrt_le_one.2 (by linarith)
      have s2 : Real.sqrt (2 - 2 * u) * Real.sqrt (2 - 2 * u) = 2 - 2 * u := Real.mul_self_sqrt (by linarith)
      rw [if_neg h, add_sub_cancel_right, if_neg (by nlinarith)]
      by_cases hz : (1 - Real.sqrt (2 - 2 * u)) * d ≤ 0
      · have hs : Real.sqrt (2 - 2 * u) = 1 := by
          have : 1 - Real.sqrt (2 - 2 * u) ≤ 0 := by
            by_contra hc
            exact absurd (mul_pos (not_le.1 hc) hd) (not_lt.2 hz)
          linarith
        rw [if_pos hz, div_eq_iff hdd, hs]
        rw [hs] at s2
        linear_combination (-(d * d)) * s2
      · rw [if_neg hz, if_pos (by nlinarith)]
        have e : ((1 - Real.sqrt (2 - 2 * u)) * d - d) * ((1 - Real.sqrt (2 - 2 * u)) * d - d) / (2 * d * d) = 1 - u := by
          rw [div_eq_iff hdd]; linear_combination (d * d) * s2
        rw [e]; ring
  left x h1 h2 := by
    have hx : m - d < x := by simpa [tentDist] using h1
    have hy : x < m + d := by simpa [tentDist] using h2
    have hdd : 0 < 2 * d * d := by positivity
    simp only [if_neg (show ¬ x - m ≤ -d by linarith)]
    by_cases h0 : x - m ≤ 0
    · simp only [if_pos h0]
      have p : 0 < x - m + d := by linarith
      have e1 : (x - m + d) * (x - m + d) / (2 * d * d) ≤ 1 / 2 := by
        rw [div_le_iff₀ hdd]; nlinarith
      refine ⟨by positivity, by linarith, ?_⟩
      have e2 : 2 * ((x - m + d) * (x - m + d) / (2 * d * d)) = ((x - m + d) / d) ^ 2 := by field_simp
      by_cases hh : (x - m + d) * (x - m + d) / (2 * d * d) < 1 / 2
      · rw [if_pos hh, e2, Real.sqrt_sq (by positivity)]
        field_simp; ring
      · have e3 : (x - m + d) * (x - m + d) / (2 * d * d) = 1 / 2 := le_antisymm e1 (not_lt.1 hh)
        rw [if_neg hh, e3]
        rw [div_eq_iff hdd.ne'] at e3
        have : x = m := by nlinarith
        rw [this]; norm_num
    · simp only [if_neg h0, if_pos (show x - m < d by linarith)]
      have p : x - m - d < 0 := by linarith
      have e1 : (x - m - d) * (x - m - d) / (2 * d * d) < 1 / 2 := by
        rw [div_lt_iff₀ hdd]; nlinarith
      have e0 : 0 < (x - m - d) * (x - m - d) / (2 * d * d) := div_pos (mul_pos_of_neg_of_neg p p) hdd
      refine ⟨by linarith, by linarith, ?_⟩
      have e2 : 2 - 2 * (1 - (x - m - d) * (x - m - d) / (2 * d * d)) = ((d - (x - m)) / d) ^ 2 := by field_simp; ring
      rw [if_neg (by linarith), e2, Real.sqrt_sq (div_nonneg (by linarith) hd.le)]
      field_simp; ring
  finite := (finite_singleton _).insert _
  deriv x hx := by
    simp only [mem_insert_iff, mem_singleton_iff, not_or] at hx
    have hl : ∀ x, HasDerivAt (fun y => (y - m + d) * (y - m + d) / (2 * d * d)) ((1 + (x - m) / d) / d) x := fun x => by
      have h1 : HasDerivAt (fun y => y - m + d) 1 x := ((hasDerivAt_id x).sub_const m).add_const d
      exact ((h1.fun_mul h1).div_const (2 * d * d)).congr_deriv (by field_simp; ring)
    have hr : ∀ x, HasDerivAt (fun y => 1 - (y - m - d) * (y - m - d) / (2 * d * d)) ((1 - (x - m) / d) / d) x := fun x => by
      have h1 : HasDerivAt (fun y => y - m - d) 1 x := ((hasDerivAt_id x).sub_const m).sub_const d
      exact (((h1.fun_mul h1).div_const (2 * d * d)).const_sub 1).congr_deriv (by field_simp; ring)
    rcases lt_or_gt_of_ne hx.1 with h | h
    · rw [if_pos (Or.inl (by linarith))]
      exact hasDerivAt_left h (hasDerivAt_const x (0 : ℝ)) fun y hy => if_pos (by linarith)
    rcases lt_or_gt_of_ne hx.2 with h2 | h2
    swap
    · rw [if_pos (Or.inr (by linarith))]
      refine hasDerivAt_right h2 (hasDerivAt_const x (1 : ℝ)) fun y hy => ?_
      rw [if_neg (by linarith), if_neg (by linarith), if_neg (by linarith)]
    rw [if_neg (by rintro (h | h) <;> linarith)]
    rcases lt_trichotomy x m with h3 | h3 | h3
    · rw [if_pos (by linarith)]
      refine hasDerivAt_between h h3 (hl x) fun y h1 h2 => ?_
      rw [if_neg (by linarith), if_pos (by linarith)]
    · rw [if_neg (by linarith)]
      have hp : HasDerivAt (fun y => if y - m ≤ 0 then (y - m + d) * (y - m + d) / (2 * d * d) else 1 - (y - m - d) * (y - m - d) / (2 * d * d))
          ((1 - (x - m) / d) / d) x := by
        refine hasDerivAt_pieces ((hl x).congr_deriv (by rw [h3]; simp)) (hr x) (fun y hy => if_pos (by linarith)) fun y hy => ?_
        rcases eq_or_lt_of_le hy with h0 | h0
        · rw [if_pos (by linarith), ← h0, h3]; field_simp; ring
        · rw [if_neg (by linarith)]
      refine hasDerivAt_between h h2 hp fun y h1 h2 => ?_
      by_cases h0 : y - m ≤ 0
      · rw [if_neg (by linarith), if_pos h0, if_pos h0]
      · rw [if_neg (by linarith), if_neg h0, if_neg h0, if_pos (by linarith)]
    · rw [if_neg (by linarith)]
      refine hasDerivAt_between h3 h2 (hr x) fun y h1 h2 => ?_
      rw [if_neg (by linarith), if_neg (by linarith), if_pos (by linarith)]
  nonneg x _ := by
    split_ifs with h h2
    · exact le_rfl
    · rw [not_or, not_le, not_le] at h
      have : -1 < (x - m) / d := by rw [lt_div_iff₀ hd]; linarith
      exact div_nonneg (by linarith) hd.le
    · rw [not_or, not_le, not_le] at h
      have : (x - m) / d < 1 := by rw [div_lt_iff₀ hd]; linarith
      exact div_nonneg (by linarith) hd.le

/-! ### pareto_dist -/

theorem rpow_inv_neg {y g : ℝ} (hy : 0 < y) (hg : 0 < g) : (y ^ (-1 / g)) ^ (-g) = y := by
  rw [← Real.rpow_mul hy.le, show -1 / g * -g = 1 by field_simp, Real.rpow_one]
theorem rpow_neg_inv {y g : ℝ} (hy : 0 < y) (hg : 0 < g) : (y ^ (-g)) ^ (-1 / g) = y := by
  rw [← Real.rpow_mul hy.le, show -g * (-1 / g) = 1 by field_simp, Real.rpow_one]
theorem one_lt_rpow_inv {y g : ℝ} (h0 : 0 < y) (h1 : y < 1) (hg : 0 < g) : 1 < y ^ (-1 / g) :=
  Real.one_lt_rpow_of_pos_of_lt_one_of_neg h0 h1 (div_neg_of_neg_of_pos (by norm_num) hg)

theorem pareto_data {g t : ℝ} (hg : 0 < g) (ht : 0 < t) : CdfData (paretoDist (fin g) (fin t))
    (fun x => if x ≤ 0 then 0 else 1 - (1 + x / t) ^ (-g)) (fun x => if x < 0 then 0 else g / t * (1 + x / t) ^ (-g - 1))
    (fun u => ((1 - u) ^ (-1 / g) - 1) * t) {0} where
  cdf x := by
    simp only [paretoDist]
    xr
    by_cases h : x ≤ 0
    · simp only [if_pos h]
    · have : 0 < x / t := div_pos (not_le.1 h) ht
      simp only [if_neg h, fin_div ht.ne']; xr; rw [pow_fin (by linarith)]; xr
  pdf x _ := by
    simp only [paretoDist]
    xr
    by_cases h : x < 0
    · simp only [if_pos h]
    · have : 0 ≤ x / t := div_nonneg (not_lt.1 h) ht.le
      simp only [if_neg h, fin_div ht.ne']; xr; rw [pow_fin (by linarith)]; xr
  icdf u h0 h1 := by
    obtain ⟨-, a, -, b, c⟩ := icdf_ok h0 h1
    simp only [paretoDist, if_neg a, if_neg b, if_neg c]
    xr
    rw [fin_div hg.ne', pow_fin (by linarith)]; xr
  lower := Or.inr ⟨0, by simp [paretoDist]⟩
  upper := Or.inl rfl
  order := trivial
  below x h := if_pos (by simpa [paretoDist] using h)
  above x h := h.elim
  mono x y h1 h2 _ := by
    have hx : 0 < x := by simpa [paretoDist] using h1
    rw [if_neg (by linarith), if_neg (by linarith)]
    have h3 : 0 < x / t := div_pos hx ht
    have : (1 + y / t) ^ (-g) ≤ (1 + x / t) ^ (-g) :=
      Real.rpow_le_rpow_of_nonpos (by linarith) (by gcongr) (by linarith)
    linarith
  right u h0 h1 := by
    have h2 := one_lt_rpow_inv (y := 1 - u) (by linarith) (by linarith) hg
    rw [if_neg (not_le.2 (mul_pos (by linarith) ht)), mul_div_cancel_right₀ _ ht.ne', add_sub_cancel, rpow_inv_neg (by linarith) hg]
    ring
  left x h1 _ := by
    have hx : 0 < x := by simpa [paretoDist] using h1
    have h3 : 0 < x / t := div_pos hx ht
    have h4 : (1 + x / t) ^ (-g) < 1 := Real.rpow_lt_one_of_one_lt_of_neg (by linarith) (by linarith)
    have h5 : 0 < (1 + x / t) ^ (-g) := Real.rpow_pos_of_pos (by linarith) _
    simp only [if_neg (not_le.2 hx)]
    refine ⟨by linarith, by linarith, ?_⟩
    rw [sub_sub_cancel, rpow_neg_inv (by linarith) hg]
    field_simp; ring
  finite := finite_singleton 0
  deriv x hx := by
    rcases lt_or_gt_of_ne (show x ≠ 0 from hx) with h | h
    · rw [if_pos h]
      exact hasDerivAt_left h (hasDerivAt_const x (0 : ℝ)) fun y hy => if_pos hy.le
    · rw [if_neg (not_lt.2 h.le)]
      refine hasDerivAt_right (g := fun y => 1 - (1 + y / t) ^ (-g)) h ?_ fun y hy => if_neg (not_le.2 hy)
      have h3 : 0 < x / t := div_pos h ht
      have h1 : HasDerivAt (fun y => 1 + y / t) (1 / t) x := ((hasDerivAt_id x).div_const t).const_add 1
      exact ((h1.rpow_const (p := -g) (Or.inl (by linarith))).const_sub 1).congr_deriv (by ring)
  nonneg x _ := by
    split_ifs with h
    · exact le_rfl
    · have : 0 ≤ x / t := div_nonneg (not_lt.1 h) ht.le
      have := Real.rpow_nonneg (show 0 ≤ 1 + x / t by linarith) (-g - 1)
      positivity

/-! ### powerlaw_dist with the distribution function clipped at theta -/

/-- powerlaw_dist with a distribution function that is 0 below theta; only an aid for the proofs. -/
noncomputable def powerlawClipped (gamma theta : XR) : ContDist :=
  { powerlawDist gamma theta with cdf := fun x => if x ≤ theta then 0 else (powerlawDist gamma theta).cdf x }

theorem powerlaw_cdf {g t x : ℝ} (ht : 0 < t) (hx : 0 < x) : (powerlawDist (fin g) (fin t)).cdf (fin x) = fin (1 - (x / t) ^ (-g)) := by
  simp only [powerlawDist]
  xr
  rw [if_neg (not_le.2 hx), fin_div ht.ne', pow_fin (div_pos hx ht)]; xr

theorem powerlaw_data {g t : ℝ} (hg : 0 < g) (ht : 0 < t) : CdfData (powerlawClipped (fin g) (fin t))
    (fun x => if x ≤ t then 0 else 1 - (x / t) ^ (-g)) (fun x => if x < t then 0 else g / t * (x / t) ^ (-g - 1))
    (fun u => t * (1 - u) ^ (-1 / g)) {t} where
  cdf x := by
    simp only [powerlawClipped]
    by_cases h : x ≤ t
    · rw [if_pos ((fin_le _ _).2 h), if_pos h]; simp
    · rw [if_neg (fun hc => h ((fin_le _ _).1 hc)), if_neg h, powerlaw_cdf ht (ht.trans (not_le.1 h))]
  pdf x _ := by
    simp only [powerlawClipped, powerlawDist]
    xr
    by_cases h : x < t
    · simp only [if_pos h]
    · have : 0 < x / t := div_pos (ht.trans_le (not_lt.1 h)) ht
      simp only [if_neg h, fin_div ht.ne']; rw [pow_fin this]; xr
  icdf u h0 h1 := by
    obtain ⟨-, a, -, b, c⟩ := icdf_ok h0 h1
    simp only [powerlawClipped, powerlawDist, if_neg a, if_neg b, if_neg c]
    xr
    rw [fin_div hg.ne', pow_fin (by linarith)]; xr
  lower := Or.inr ⟨t, rfl⟩
  upper := Or.inl rfl
  order := trivial
  below x h := if_pos h
  above x h := h.elim
  mono x y h1 h2 _ := by
    have hx : t < x := h1
    rw [if_neg (by linarith), if_neg (by linarith)]
    have h3 : 0 < x / t := div_pos (by linarith) ht
    have : (y / t) ^ (-g) ≤ (x / t) ^ (-g) :=
      Real.rpow_le_rpow_of_nonpos h3 (by gcongr) (by linarith)
    linarith
  right u h0 h1 := by
    have h2 := one_lt_rpow_inv (y := 1 - u) (by linarith) (by linarith) hg
    rw [if_neg (not_le.2 (by nlinarith)), mul_div_cancel_left₀ _ ht.ne', rpow_inv_neg (by linarith) hg]
    ring
  left x h1 _ := by
    have hx : t < x := h1
    have h3 : 1 < x / t := by rwa [one_lt_div ht]
    have h4 : (x / t) ^ (-g) < 1 := Real.rpow_lt_one_of_one_lt_of_neg h3 (by linarith)
    have h5 : 0 < (x / t) ^ (-g) := Real.rpow_pos_of_pos (by linarith) _
    simp only [if_neg (not_le.2 hx)]
    refine ⟨by linarith, by linarith, ?_⟩
    rw [sub_sub_cancel, rpow_neg_inv (by linarith) hg]
    field_simp
  finite := finite_singleton t
  deriv x hx := by
    rcases lt_or_gt_of_ne (show x ≠ t from hx) with h | h
    · rw [if_pos h]
      exact hasDerivAt_left h (hasDerivAt_const x (0 : ℝ)) fun y hy => if_pos hy.le
    · rw [if_neg (not_lt.2 h.le)]
      refine hasDerivAt_right (g := fun y => 1 - (y / t) ^ (-g)) h ?_ fun y hy => if_neg (not_le.2 hy)
      have h3 : 0 < x / t := div_pos (ht.trans h) ht
      have h1 : HasDerivAt (fun y => y / t) (1 / t) x := (hasDerivAt_id x).div_const t
      exact ((h1.rpow_const (p := -g) (Or.inl (by linarith))).const_sub 1).congr_deriv (by ring)
  nonneg x _ := by
    split_ifs with h
    · exact le_rfl
    · have : 0 ≤ x / t := div_nonneg (ht.le.trans (not_lt.1 h)) ht.le
      have := Real.rpow_nonneg this (-g - 1)
      positivity

/-! ### weibull_dist -/

theorem weibull_data {t b : ℝ} (ht : 0 < t) (hb : 0 < b) : CdfData (weibullDist (fin t) (fin b))
    (fun x => if x / t ≤ 0 then 0 else -(Real.exp (-(x / t) ^ b) - 1))
    (fun x => if x < 0 then 0 else b / t * ((x / t) ^ b / (x / t)) * Real.exp (-(x / t) ^ b))
    (fun u => t * (-Real.log (1 + -u)) ^ (1 / b)) {0} where
  cdf x := by
    simp only [weibullDist]
    xr
    rw [fin_div ht.ne']; xr
    by_cases h : x / t ≤ 0
    · simp only [if_pos h]
    · simp only [if_neg h]; rw [pow_fin (not_le.1 h)]; xr
  pdf x hx := by
    simp only [weibullDist]
    xr
    rw [fin_div ht.ne', fin_div ht.ne']; xr
    by_cases h : x < 0
    · simp only [if_pos h]
    · have h1 : 0 < x / t := div_pos (lt_of_le_of_ne (not_lt.1 h) (Ne.symm hx)) ht
      simp only [if_neg h, if_pos h1, pow_fin h1]; rw [fin_div h1.ne']; xr
  icdf u h0 h1 := by
    obtain ⟨-, -, a, -, -⟩ := icdf_ok h0 h1
    have hl : Real.log (1 + -u) < 0 := Real.log_neg (by linarith) (by linarith)
    simp only [weibullDist, if_neg a]
    xr
    rw [ln1p_fin (by linarith), fin_div hb.ne']; xr
    rw [pow_fin (by linarith)]; xr
  lower := Or.inr ⟨0, by simp [weibullDist]⟩
  upper := Or.inl rfl
  order := trivial
  below x h := if_pos (div_nonpos_of_nonpos_of_nonneg (by simpa [weibullDist] using h) ht.le)
  above x h := h.elim
  mono x y h1 h2 _ := by
    have hx : 0 < x := by simpa [weibullDist] using h1
    have h3 : 0 < x / t := div_pos hx ht
    have h4 : 0 < y / t := div_pos (by linarith) ht
    rw [if_neg (by linarith), if_neg (by linarith)]
    have h5 : (x / t) ^ b ≤ (y / t) ^ b := Real.rpow_le_rpow h3.le (by gcongr) hb.le
    have h6 : Real.exp (-(y / t) ^ b) ≤ Real.exp (-(x / t) ^ b) := Real.exp_le_exp.2 (by linarith)
    linarith
  right u h0 h1 := by
    have hl : Real.log (1 + -u) < 0 := Real.log_neg (by linarith) (by linarith)
    have hp : 0 < (-Real.log (1 + -u)) ^ (1 / b) := Real.rpow_pos_of_pos (by linarith) _
    rw [mul_div_cancel_left₀ _ ht.ne', if_neg (by linarith), ← Real.rpow_mul (by linarith), one_div_mul_cancel hb.ne', Real.rpow_one,
      neg_neg, Real.exp_log (by linarith)]
    ring
  left x h1 _ := by
    have hx : 0 < x := by simpa [weibullDist] using h1
    have h3 : 0 < x / t := div_pos hx ht
    have h4 : 0 < (x / t) ^ b := Real.rpow_pos_of_pos h3 _
    have h5 : Real.exp (-(x / t) ^ b) < 1 := Real.exp_lt_one_iff.2 (by linarith)
    have h6 := Real.exp_pos (-(x / t) ^ b)
    simp only [if_neg (not_le.2 h3)]
    refine ⟨by linarith, by linarith, ?_⟩
    rw [show 1 + -(-(Real.exp (-(x / t) ^ b) - 1)) = Real.exp (-(x / t) ^ b) by ring, Real.log_exp, neg_neg, ← Real.rpow_mul h3.le,
      mul_one_div_cancel hb.ne', Real.rpow_one]
    field_simp
  finite := finite_singleton 0
  deriv x hx := by
    rcases lt_or_gt_of_ne (show x ≠ 0 from hx) with h | h
    · rw [if_pos h]
      exact hasDerivAt_left h (hasDerivAt_const x (0 : ℝ)) fun y hy => if_pos (div_nonpos_of_nonpos_of_nonneg hy.le ht.le)
    · rw [if_neg (not_lt.2 h.le)]
      refine hasDerivAt_right (g := fun y => -(Real.exp (-(y / t) ^ b) - 1)) h ?_ fun y hy => if_neg (not_le.2 (div_pos hy ht))
      have h3 : 0 < x / t := div_pos h ht
      have h1 : HasDerivAt (fun y => y / t) (1 / t) x := (hasDerivAt_id x).div_const t
      have h2 := (((h1.rpow_const (p := b) (Or.inl h3.ne')).fun_neg.exp).sub_const 1).fun_neg
      refine h2.congr_deriv ?_
      rw [Real.rpow_sub_one h3.ne']
      field_simp
  nonneg x _ := by
    split_ifs with h
    · exact le_rfl
    · have h1 : 0 ≤ x / t := div_nonneg (not_lt.1 h) ht.le
      have := Real.rpow_nonneg h1 b
      positivity

/-! ### logistic_dist -/

theorem logistic_data {t e : ℝ} (ht : 0 < t) : CdfData (logisticDist (fin t) (fin e))
    (fun x => 1 / (1 + Real.exp (-((x - e) / t))))
    (fun x => Real.exp (-|(x - e) / t|) / (t * (1 + Real.exp (-|(x - e) / t|)) * (1 + Real.exp (-|(x - e) / t|))))
    (fun u => e - Real.log ((1 - u) / u) * t) ∅ where
  cdf x := by
    have hp : ∀ y, (1 + Real.exp y) ≠ 0 := fun y => by positivity
    simp only [logisticDist]
    xr
    rw [fin_div ht.ne']; xr
    by_cases h : e ≤ x
    · have h1 : 0 ≤ (x - e) / t := div_nonneg (by linarith) ht.le
      rw [if_pos h, fin_div (hp _), abs_of_nonneg h1]
    · have h1 : (x - e) / t < 0 := div_neg_of_neg_of_pos (by linarith) ht
      rw [if_neg h, fin_div (hp _), abs_of_neg h1, neg_neg, fin_inj, div_eq_div_iff (hp _) (hp _), mul_add, ← Real.exp_add]
      simp [add_comm]
  pdf x _ := by
    simp only [logisticDist]
    xr
    rw [fin_div ht.ne']; xr
    rw [fin_div (by positivity)]
  icdf u h0 h1 := by
    obtain ⟨a, -, -, b, c⟩ := icdf_ok h0 h1
    simp only [logisticDist, logisticIcdf, if_neg a, if_neg b, if_neg c]
    xr
    rw [fin_div h0.ne', ln_fin (div_pos (by linarith) h0)]; xr
  lower := Or.inl rfl
  upper := Or.inl rfl
  order := trivial
  below x h := h.elim
  above x h := h.elim
  mono x y _ h2 _ := by gcongr
  right u h0 h1 := by
    rw [show -((e - Real.log ((1 - u) / u) * t - e) / t) = Real.log ((1 - u) / u) by field_simp; ring,
      Real.exp_log (div_pos (by linarith) h0)]
    field_simp; ring
  left x _ _ := by
    have hp := Real.exp_pos (-((x - e) / t))
    refine ⟨by positivity, by rw [div_lt_one (by positivity)]; linarith, ?_⟩
    rw [show (1 - 1 / (1 + Real.exp (-((x - e) / t)))) / (1 / (1 + Real.exp (-((x - e) / t)))) = Real.exp (-((x - e) / t)) by
      field_simp; ring, Real.log_exp]
    field_simp; ring
  finite := finite_empty
  deriv x _ := by
    have h1 : HasDerivAt (fun y => 1 + Real.exp (-((y - e) / t))) (Real.exp (-((x - e) / t)) * (-(1 / t))) x :=
      ((((hasDerivAt_id x).sub_const e).div_const t).fun_neg.exp).const_add 1
    have h2 := ((hasDerivAt_const x (1 : ℝ)).fun_div h1 (by positivity))
    refine h2.congr_deriv ?_
    rcases le_or_gt 0 ((x - e) / t) with h | h
    · rw [abs_of_nonneg h]
      have hp := Real.exp_pos (-((x - e) / t))
      field_simp; ring
    · rw [abs_of_neg h, neg_neg, Real.exp_neg]
      have hp := Real.exp_pos ((x - e) / t)
      field_simp; ring
  nonneg x _ := by positivity

/-! ### extreme_value_dist -/

theorem extreme_data {t e : ℝ} (ht : 0 < t) : CdfData (extremeValueDist (fin t) (fin e))
    (fun x => 1 - Real.exp (-Real.exp ((x - e) / t)))
    (fun x => Real.exp ((x - e) / t - Real.exp ((x - e) / t)) / t)
    (fun u => e + t * Real.log (-Real.log (1 - u))) ∅ where
  cdf x := by
    simp only [extremeValueDist]
    xr
    rw [fin_div ht.ne']; xr
  pdf x _ := by
    simp only [extremeValueDist]
    xr
    rw [fin_div ht.ne']; xr
    rw [fin_div ht.ne']
  icdf u h0 h1 := by
    obtain ⟨-, a, -, b, c⟩ := icdf_ok h0 h1
    have hl : Real.log (1 - u) < 0 := Real.log_neg (by linarith) (by linarith)
    simp only [extremeValueDist, if_neg a, if_neg b, if_neg c]
    xr
    rw [ln_fin (by linarith)]; xr
    rw [ln_fin (by linarith)]; xr
  lower := Or.inl rfl
  upper := Or.inl rfl
  order := trivial
  below x h := h.elim
  above x h := h.elim
  mono x y _ h2 _ := by
    have : Real.exp (-Real.exp ((y - e) / t)) ≤ Real.exp (-Real.exp ((x - e) / t)) := by gcongr
    linarith
  right u h0 h1 := by
    have hl : Real.log (1 - u) < 0 := Real.log_neg (by linarith) (by linarith)
    rw [show (e + t * Real.log (-Real.log (1 - u)) - e) / t = Real.log (-Real.log (1 - u)) by field_simp; ring,
      Real.exp_log (by linarith), neg_neg, Real.exp_log (by linarith)]
    ring
  left x _ _ := by
    have hp := Real.exp_pos ((x - e) / t)
    have h1 : Real.exp (-Real.exp ((x - e) / t)) < 1 := Real.exp_lt_one_iff.2 (by linarith)
    have h2 := Real.exp_pos (-Real.exp ((x - e) / t))
    refine ⟨by linarith, by linarith, ?_⟩
    rw [sub_sub_cancel, Real.log_exp, neg_neg, Real.log_exp]
    field_simp; ring
  finite := finite_empty
  deriv x _ := by
    have h1 : HasDerivAt (fun y => (y - e) / t) (1 / t) x := ((hasDerivAt_id x).sub_const e).div_const t
    refine ((h1.exp.fun_neg.exp).const_sub 1).congr_deriv ?_
    rw [sub_eq_add_neg ((x - e) / t), Real.exp_add]
    ring
  nonneg x _ := by positivity

/-! ### cauchy_dist -/

theorem cauchyIcdf_fin {t e u : ℝ} (h0 : 0 < u) (h1 : u < 1) : cauchyIcdf (fin t) (fin e) (fin u) =
    fin (e - t * Real.cos (u * Real.pi) / Real.sin (u * Real.pi)) := by
  have hs : 0 < Real.sin (u * Real.pi) := Real.sin_pos_of_pos_of_lt_pi (by positivity) (by nlinarith [Real.pi_pos])
  simp only [cauchyIcdf]
  xr
  rw [fin_div hs.ne']; xr

theorem cauchy_data {t e : ℝ} (ht : 0 < t) : CdfData (cauchyDist (fin t) (fin e))
    (fun x => 1 / Real.pi * Real.arctan ((x - e) / t) + 1 / 2)
    (fun x => 1 / Real.pi / (1 + (x - e) / t * ((x - e) / t)) / t)
    (fun u => e - t * Real.cos (u * Real.pi) / Real.sin (u * Real.pi)) ∅ where
  cdf x := by
    simp only [cauchyDist]
    rw [half_eq]
    xr
    rw [fin_div ht.ne']; xr
  pdf x _ := by
    have : 0 ≤ (x - e) / t * ((x - e) / t) := mul_self_nonneg _
    simp only [cauchyDist]
    xr
    rw [fin_div ht.ne']; xr
    rw [fin_div (by linarith), fin_div ht.ne']
  icdf u h0 h1 := by
    obtain ⟨-, a, -, b, c⟩ := icdf_ok h0 h1
    simp only [cauchyDist, if_neg a, if_neg b, if_neg c]
    exact cauchyIcdf_fin h0 h1
  lower := Or.inl rfl
  upper := Or.inl rfl
  order := trivial
  below x h := h.elim
  above x h := h.elim
  mono x y _ h2 _ := by
    have hp := Real.pi_pos
    have : Real.arctan ((x - e) / t) ≤ Real.arctan ((y - e) / t) := Real.arctan_mono (by gcongr)
    gcongr
  right u h0 h1 := by
    have hp := Real.pi_pos
    have hs : 0 < Real.sin (u * Real.pi) := Real.sin_pos_of_pos_of_lt_pi (by positivity) (by nlinarith)
    have h2 : (e - t * Real.cos (u * Real.pi) / Real.sin (u * Real.pi) - e) / t = Real.tan (u * Real.pi - Real.pi / 2) := by
      rw [Real.tan_eq_sin_div_cos, Real.sin_sub_pi_div_two, Real.cos_sub_pi_div_two]
      field_simp; ring
    rw [h2, Real.arctan_tan (by nlinarith) (by nlinarith)]
    field_simp; ring
  left x _ _ := by
    have hp := Real.pi_pos
    have h1 := Real.neg_pi_div_two_lt_arctan ((x - e) / t)
    have h2 := Real.arctan_lt_pi_div_two ((x - e) / t)
    have h3 : (1 / Real.pi * Real.arctan ((x - e) / t) + 1 / 2) * Real.pi = Real.arctan ((x - e) / t) + Real.pi / 2 := by field_simp
    refine ⟨?_, ?_, ?_⟩
    · by_contra hc
      have := mul_nonpos_of_nonpos_of_nonneg (not_lt.1 hc) hp.le
      rw [h3] at this; linarith
    · by_contra hc
      have := mul_le_mul_of_nonneg_right (not_lt.1 hc) hp.le
      rw [h3] at this; linarith
    · have hc : Real.cos (Real.arctan ((x - e) / t)) ≠ 0 := (Real.cos_arctan_pos _).ne'
      have htan := Real.tan_arctan ((x - e) / t)
      rw [Real.tan_eq_sin_div_cos, div_eq_iff hc] at htan
      rw [h3, Real.cos_add_pi_div_two, Real.sin_add_pi_div_two, htan]
      field_simp; ring
  finite := finite_empty
  deriv x _ := by
    have h1 : HasDerivAt (fun y => (y - e) / t) (1 / t) x := ((hasDerivAt_id x).sub_const e).div_const t
    refine ((h1.arctan.const_mul (1 / Real.pi)).add_const (1 / 2)).congr_deriv ?_
    rw [pow_two]
    ring
  nonneg x _ := by
    have : 0 ≤ (x - e) / t * ((x - e) / t) := mul_self_nonneg _
    have := Real.pi_pos
    positivity

/-! ### rayleigh_dist -/

theorem rayleighIcdf_fin {n u : ℝ} (h0 : 0 ≤ u) (h1 : u < 1) : rayleighIcdf (fin n) (fin u) = fin (n * Real.sqrt (-2 * Real.log (1 - u))) := by
  have hl : Real.log (1 - u) ≤ 0 := Real.log_nonpos (by linarith) (by linarith)
  rw [rayleighIcdf]
  xr
  rw [if_neg (by rintro (h | h) <;> linarith), ln_fin (by linarith)]; xr
  rw [sqrt_fin (by linarith)]; xr

theorem rayleigh_data {n : ℝ} (hn : 0 < n) : CdfData (rayleighDist (fin n))
    (fun x => if x ≤ 0 then 0 else 1 - Real.exp (-x * x / (2 * n * n)))
    (fun x => if x ≤ 0 then 0 else x / (n * n) * Real.exp (-(x / (n * n)) * x / 2))
    (fun u => n * Real.sqrt (-2 * Real.log (1 - u))) ∅ where
  cdf x := by
    simp only [rayleighDist]
    xr
    by_cases h : x ≤ 0
    · simp only [if_pos h]
    · simp only [if_neg h]; rw [fin_div (by positivity)]; xr
  pdf x _ := by
    simp only [rayleighDist]
    xr
    by_cases h : x ≤ 0
    · simp only [if_pos h]
    · simp only [if_neg h]; rw [fin_div (by positivity)]; xr; rw [fin_div (by norm_num)]; xr
  icdf u h0 h1 := rayleighIcdf_fin h0.le h1
  lower := Or.inr ⟨0, by simp [rayleighDist]⟩
  upper := Or.inl rfl
  order := trivial
  below x h := if_pos (by simpa [rayleighDist] using h)
  above x h := h.elim
  mono x y h1 h2 _ := by
    have hx : 0 < x := by simpa [rayleighDist] using h1
    rw [if_neg (by linarith), if_neg (by linarith)]
    have h3 : -y * y ≤ -x * x := by nlinarith
    have : Real.exp (-y * y / (2 * n * n)) ≤ Real.exp (-x * x / (2 * n * n)) := by gcongr
    linarith
  right u h0 h1 := by
    have hl : Real.log (1 - u) < 0 := Real.log_neg (by linarith) (by linarith)
    have hs : 0 < Real.sqrt (-2 * Real.log (1 - u)) := Real.sqrt_pos.2 (by linarith)
    have h2 : Real.sqrt (-2 * Real.log (1 - u)) * Real.sqrt (-2 * Real.log (1 - u)) = -2 * Real.log (1 - u) := Real.mul_self_sqrt (by linarith)
    rw [if_neg (not_le.2 (mul_pos hn hs)), show -(n * Real.sqrt (-2 * Real.log (1 - u))) * (n * Real.sqrt (-2 * Real.log (1 - u))) / (2 * n * n)
      = -(Real.sqrt (-2 * Real.log (1 - u)) * Real.sqrt (-2 * Real.log (1 - u))) / 2 by field_simp, h2,
      show -(-2 * Real.log (1 - u)) / 2 = Real.log (1 - u) by ring, Real.exp_log (by linarith)]
    ring
  left x h1 _ := by
    have hx : 0 < x := by simpa [rayleighDist] using h1
    have h2 : Real.exp (-x * x / (2 * n * n)) < 1 := Real.exp_lt_one_iff.2 (div_neg_of_neg_of_pos (by nlinarith) (by positivity))
    have h3 := Real.exp_pos (-x * x / (2 * n * n))
    simp only [if_neg (not_le.2 hx)]
    refine ⟨by linarith, by linarith, ?_⟩
    rw [sub_sub_cancel, Real.log_exp, show -2 * (-x * x / (2 * n * n)) = (x / n) ^ 2 by field_simp, Real.sqrt_sq (by positivity)]
    field_simp
  finite := finite_empty
  deriv x _ := by
    have hg : ∀ x, HasDerivAt (fun y => 1 - Real.exp (-y * y / (2 * n * n))) (x / (n * n) * Real.exp (-(x / (n * n)) * x / 2)) x := fun x => by
      have h1 : HasDerivAt (fun y => -y * y / (2 * n * n)) (-x / (n * n)) x :=
        (((hasDerivAt_id x).fun_neg.fun_mul (hasDerivAt_id x)).div_const (2 * n * n)).congr_deriv (by simp only [id]; field_simp; ring)
      refine (h1.exp.const_sub 1).congr_deriv ?_
      rw [show -(x / (n * n)) * x / 2 = -x * x / (2 * n * n) by field_simp]
      ring
    rcases lt_trichotomy x 0 with h | h | h
    · rw [if_pos h.le]
      exact hasDerivAt_left h (hasDerivAt_const x (0 : ℝ)) fun y hy => if_pos hy.le
    · rw [if_pos h.le]
      refine hasDerivAt_pieces (hasDerivAt_const x (0 : ℝ)) ((hg x).congr_deriv (by rw [h]; simp)) (fun y hy => if_pos (by linarith)) fun y hy => ?_
      rcases eq_or_lt_of_le hy with h0 | h0
      · rw [if_pos (by linarith), ← h0, h]; simp
      · exact if_neg (by linarith)
    · rw [if_neg (not_le.2 h)]
      exact hasDerivAt_right h (hg x) fun y hy => if_neg (not_le.2 hy)
  nonneg x _ := by
    split_ifs with h
    · exact le_rfl
    · have := not_le.1 h
      positivity

end Trng
