import Verif.Proofs.Continuous

/-! The real functions behind the closed-form distributions. -/
namespace Trng
open XR MeasureTheory Filter Topology Set
open Classical

macro "xr" : tactic => `(tactic| simp only [ofNat_fin, Nat.cast_zero, Nat.cast_one, Nat.cast_ofNat, fin_lt, fin_le, fin_eq, neg_fin, fin_add, fin_sub,
  fin_mul, abs_fin, exp_fin, expm1_fin, sin_fin, cos_fin, atan_fin, neg_pinf, neg_ninf])

/-- In (0,1) the domain checks of icdf pass. -/
theorem icdf_ok {u : ℝ} (h0 : 0 < u) (h1 : u < 1) :
    ¬ (fin u < 0 ∨ 1 < fin u) ∧ ¬ (fin u ≤ 0 ∨ 1 ≤ fin u) ∧ ¬ (fin u < 0 ∨ 1 ≤ fin u) ∧ ¬ eq (fin u) 0 ∧ ¬ eq (fin u) 1 := by
  xr
  refine ⟨?_, ?_, ?_, h0.ne', h1.ne⟩ <;> rintro (h | h) <;> linarith

theorem exp_neg_div_lt_one {x mu : ℝ} (hmu : 0 < mu) (hx : 0 < x) : Real.exp (-x / mu) < 1 := by
  rw [Real.exp_lt_one_iff, neg_div]
  exact neg_neg_of_pos (div_pos hx hmu)

/-! ### exponential_dist -/

theorem exponential_data {mu : ℝ} (hmu : 0 < mu) : CdfData (exponentialDist (fin mu))
    (fun x => if x ≤ 0 then 0 else 1 - Real.exp (-x / mu)) (fun x => if x < 0 then 0 else Real.exp (-x / mu) / mu)
    (fun u => -mu * Real.log (1 - u)) {0} where
  cdf x := by
    simp only [exponentialDist]
    xr
    by_cases h : x ≤ 0
    · simp only [if_pos h]
    · simp only [if_neg h, fin_div hmu.ne']; xr
  pdf x _ := by
    simp only [exponentialDist]
    xr
    by_cases h : x < 0
    · simp only [if_pos h]
    · simp only [if_neg h, fin_div hmu.ne']; xr; rw [fin_div hmu.ne']
  icdf u h0 h1 := by
    obtain ⟨a, -, -, -, c⟩ := icdf_ok h0 h1
    simp only [exponentialDist, if_neg a, if_neg c]
    xr
    rw [ln_fin (by linarith)]; xr
  lower := Or.inr ⟨0, by simp [exponentialDist]⟩
  upper := Or.inl rfl
  order := trivial
  below x h := if_pos (by simpa [exponentialDist] using h)
  above x h := h.elim
  mono x y h1 h2 _ := by
    have hx : 0 < x := by simpa [exponentialDist] using h1
    rw [if_neg (by linarith), if_neg (by linarith)]
    have : Real.exp (-y / mu) ≤ Real.exp (-x / mu) := by gcongr
    linarith
  right u h0 h1 := by
    have hl : Real.log (1 - u) < 0 := Real.log_neg (by linarith) (by linarith)
    rw [if_neg (not_le.2 (mul_pos_of_neg_of_neg (by linarith) hl)), show -(-mu * Real.log (1 - u)) / mu = Real.log (1 - u) by field_simp,
      Real.exp_log (by linarith)]
    ring
  left x h1 _ := by
    have hx : 0 < x := by simpa [exponentialDist] using h1
    have := exp_neg_div_lt_one hmu hx
    simp only [if_neg (not_le.2 hx)]
    refine ⟨by linarith, by linarith [Real.exp_pos (-x / mu)], ?_⟩
    rw [show 1 - (1 - Real.exp (-x / mu)) = Real.exp (-x / mu) by ring, Real.log_exp]
    field_simp
  finite := finite_singleton 0
  deriv x hx := by
    rcases lt_or_gt_of_ne (show x ≠ 0 from hx) with h | h
    · rw [if_pos h]
      exact hasDerivAt_left h (hasDerivAt_const x (0 : ℝ)) fun y hy => if_pos hy.le
    · rw [if_neg (not_lt.2 h.le)]
      refine hasDerivAt_right (g := fun y => 1 - Real.exp (-y / mu)) h ?_ fun y hy => if_neg (not_le.2 hy)
      have : HasDerivAt (fun y => 1 - Real.exp (-y / mu)) (-(Real.exp (-x / mu) * (-1 / mu))) x :=
        (((hasDerivAt_id x).fun_neg.div_const mu).exp).const_sub 1
      exact this.congr_deriv (by ring)
  nonneg x _ := by
    split_ifs
    · exact le_rfl
    · positivity

/-! ### twosided_exponential_dist -/

theorem twosided_data {mu : ℝ} (hmu : 0 < mu) : CdfData (twosidedExponentialDist (fin mu))
    (fun x => if x ≤ 0 then Real.exp (x / mu) / 2 else 1 - Real.exp (-x / mu) / 2) (fun x => Real.exp (-|x| / mu) / (2 * mu))
    (fun u => if u < 1 / 2 then mu * Real.log (2 * u) else -mu * Real.log (2 - 2 * u)) ∅ where
  cdf x := by
    simp only [twosidedExponentialDist]
    xr
    by_cases h : x ≤ 0
    · simp only [if_pos h, fin_div hmu.ne']; xr; rw [fin_div (by norm_num)]
    · simp only [if_neg h, fin_div hmu.ne']; xr; rw [fin_div (by norm_num)]; xr
  pdf x _ := by
    simp only [twosidedExponentialDist]
    xr
    rw [fin_div hmu.ne']; xr
    rw [fin_div (by positivity)]
  icdf u h0 h1 := by
    obtain ⟨a, -, -, b, c⟩ := icdf_ok h0 h1
    simp only [twosidedExponentialDist, twosidedIcdf, if_neg a, if_neg b, if_neg c]
    xr
    by_cases h : u < 1 / 2
    · simp only [if_pos h]; rw [ln_fin (by linarith)]; xr
    · simp only [if_neg h]; rw [ln_fin (by linarith)]; xr
  lower := Or.inl rfl
  upper := Or.inl rfl
  order := trivial
  below x h := h.elim
  above x h := h.elim
  mono x y _ h2 _ := by
    by_cases hy : y ≤ 0
    · rw [if_pos hy, if_pos (h2.trans hy)]
      have : Real.exp (x / mu) ≤ Real.exp (y / mu) := by gcongr
      linarith
    · rw [if_neg hy]
      have hy' := exp_neg_div_lt_one hmu (not_le.1 hy)
      by_cases hx : x ≤ 0
      · rw [if_pos hx]
        have : Real.exp (x / mu) ≤ 1 := Real.exp_le_one_iff.2 (div_nonpos_of_nonpos_of_nonneg hx hmu.le)
        linarith
      · rw [if_neg hx]
        have : Real.exp (-y / mu) ≤ Real.exp (-x / mu) := by gcongr
        linarith
  right u h0 h1 := by
    by_cases h : u < 1 / 2
    · have hl : Real.log (2 * u) < 0 := Real.log_neg (by linarith) (by linarith)
      rw [if_pos h, if_pos (mul_nonpos_of_nonneg_of_nonpos hmu.le hl.le), mul_div_cancel_left₀ _ hmu.ne', Real.exp_log (by linarith)]
      ring
    · rw [if_neg h]
      have hl : Real.log (2 - 2 * u) ≤ 0 := Real.log_nonpos (by linarith) (by linarith)
      have e : Real.exp (-(-mu * Real.log (2 - 2 * u)) / mu) = 2 - 2 * u := by
        rw [show -(-mu * Real.log (2 - 2 * u)) / mu = Real.log (2 - 2 * u) by field_simp, Real.exp_log (by linarith)]
      rcases eq_or_lt_of_le hl with hl | hl
      · have : u = 1 / 2 := by
          have := Real.exp_log (show 0 < 2 - 2 * u by linarith)
          rw [hl, Real.exp_zero] at this
          linarith
        rw [if_pos (by rw [hl, mul_zero]), hl, this]; norm_num
      · rw [if_neg (not_le.2 (mul_pos_of_neg_of_neg (by linarith) hl)), e]; ring
  left x _ _ := by
    by_cases h : x ≤ 0
    · simp only [if_pos h]
      have h3 : Real.exp (x / mu) ≤ 1 := Real.exp_le_one_iff.2 (div_nonpos_of_nonpos_of_nonneg h hmu.le)
      refine ⟨by positivity, by linarith, ?_⟩
      by_cases h0 : Real.exp (x / mu) / 2 < 1 / 2
      · rw [if_pos h0, mul_div_cancel₀ _ (by norm_num : (2 : ℝ) ≠ 0), Real.log_exp]; field_simp
      · have hx0 : x = 0 := by
          have : Real.exp (x / mu) = 1 := le_antisymm h3 (by linarith)
          rw [Real.exp_eq_one_iff, div_eq_zero_iff] at this
          exact this.resolve_right hmu.ne'
        rw [if_neg h0, hx0]; norm_num
    · simp only [if_neg h]
      have h3 := exp_neg_div_lt_one hmu (not_le.1 h)
      have h4 := Real.exp_pos (-x / mu)
      refine ⟨by linarith, by linarith, ?_⟩
      rw [if_neg (by linarith), show 2 - 2 * (1 - Real.exp (-x / mu) / 2) = Real.exp (-x / mu) by ring, Real.log_exp]
      field_simp
  finite := finite_empty
  deriv x _ := by
    have hp : ∀ x, HasDerivAt (fun y => Real.exp (y / mu) / 2) (Real.exp (x / mu) / (2 * mu)) x := fun x =>
      ((((hasDerivAt_id x).div_const mu).exp).div_const 2).congr_deriv (by simp only [id]; field_simp)
    have hn : ∀ x, HasDerivAt (fun y => 1 - Real.exp (-y / mu) / 2) (Real.exp (-x / mu) / (2 * mu)) x := fun x =>
      (((((hasDerivAt_id x).fun_neg.div_const mu).exp).div_const 2).const_sub 1).congr_deriv (by simp only [id]; field_simp)
    rcases lt_trichotomy x 0 with h | h | h
    · rw [abs_of_neg h, neg_neg]
      exact hasDerivAt_left h (hp x) fun y hy => if_pos hy.le
    · rw [h, abs_zero]
      refine hasDerivAt_pieces (hp 0 |>.congr_deriv (by simp)) (hn 0) (fun y hy => if_pos hy) fun y hy => ?_
      rcases eq_or_lt_of_le hy with h0 | h0
      · rw [← h0]; norm_num
      · exact if_neg (not_le.2 h0)
    · rw [abs_of_pos h]
      exact hasDerivAt_right h (hn x) fun y hy => if_neg (not_le.2 hy)
  nonneg x _ := by positivity

/-! ### uniform_dist and uniform01_dist -/

theorem uniform_data {a b : ℝ} (hab : a < b) : CdfData (uniformDist (fin a) (fin b))
    (fun x => if x < a then 0 else if b ≤ x then 1 else (x - a) / (b - a)) (fun x => if x < a ∨ b ≤ x then 0 else 1 / (b - a))
    (fun u => u * (b - a) + a) {a, b} where
  cdf x := by
    simp only [uniformDist]
    xr
    by_cases h : x < a
    · simp only [if_pos h]
    · by_cases h2 : b ≤ x
      · simp only [if_neg h, if_pos h2]
      · simp only [if_neg h, if_neg h2]; rw [fin_div (by linarith)]
  pdf x _ := by
    simp only [uniformDist]
    xr
    by_cases h : x < a ∨ b ≤ x
    · simp only [if_pos h]
    · simp only [if_neg h]; rw [fin_div (by linarith)]
  icdf u h0 h1 := by
    obtain ⟨h, -, -, -, -⟩ := icdf_ok h0 h1
    simp only [uniformDist, if_neg h]; xr
  lower := Or.inr ⟨a, rfl⟩
  upper := Or.inr ⟨b, rfl⟩
  order := hab
  below x h := by
    have hx : x ≤ a := h
    by_cases h : x < a
    · exact if_pos h
    · have : x = a := le_antisymm hx (not_lt.1 h)
      rw [if_neg h, if_neg (by linarith), this, sub_self, zero_div]
  above x h := by
    have hx : b ≤ x := h
    rw [if_neg (by linarith), if_pos hx]
  mono x y h1 h2 h3 := by
    have hx : a < x := h1
    have hy : y < b := h3
    rw [if_neg (by linarith), if_neg (by linarith), if_neg (by linarith), if_neg (by linarith)]
    have : 0 < b - a := by linarith
    gcongr
  right u h0 h1 := by
    have hba : 0 < b - a := by linarith
    have h2 : 0 < u * (b - a) := mul_pos h0 hba
    have h3 : u * (b - a) < b - a := by nlinarith
    rw [if_neg (by linarith), if_neg (by linarith), add_sub_cancel_right, mul_div_cancel_right₀ _ hba.ne']
  left x h1 h2 := by
    have hx : a < x := h1
    have hy : x < b := h2
    have hba : 0 < b - a := by linarith
    simp only [if_neg (show ¬ x < a by linarith), if_neg (show ¬ b ≤ x by linarith)]
    refine ⟨div_pos (by linarith) hba, (div_lt_one hba).2 (by linarith), ?_⟩
    rw [div_mul_cancel₀ _ hba.ne']; ring
  finite := (finite_singleton b).insert a
  deriv x hx := by
    simp only [mem_insert_iff, mem_singleton_iff, not_or] at hx
    rcases lt_or_gt_of_ne hx.1 with h | h
    · rw [if_pos (Or.inl h)]
      exact hasDerivAt_left h (hasDerivAt_const x (0 : ℝ)) fun y hy => if_pos hy
    · rcases lt_or_gt_of_ne hx.2 with h2 | h2
      · rw [if_neg (by rintro (h | h) <;> linarith)]
        refine hasDerivAt_between (g := fun y => (y - a) / (b - a)) h h2 (((hasDerivAt_id x).sub_const a).div_const (b - a)) fun y h1 h2 => ?_
        rw [if_neg (by linarith), if_neg (by linarith)]
      · rw [if_pos (Or.inr h2.le)]
        refine hasDerivAt_right h2 (hasDerivAt_const x (1 : ℝ)) fun y hy => ?_
        rw [if_neg (by linarith), if_pos hy.le]
  nonneg x _ := by
    split_ifs
    · exact le_rfl
    · exact (one_div_pos.2 (by linarith)).le

theorem uniform01_data : CdfData uniform01Dist
    (fun x => if x < 0 then 0 else if 1 ≤ x then 1 else x) (fun x => if x < 0 ∨ 1 ≤ x then 0 else 1) (fun u => u) {0, 1} where
  cdf x := by
    simp only [uniform01Dist]
    xr
    by_cases h : x < 0
    · simp only [if_pos h]
    · by_cases h2 : 1 ≤ x
      · simp only [if_neg h, if_pos h2]
      · simp only [if_neg h, if_neg h2]
  pdf x _ := by
    simp only [uniform01Dist]
    xr
    by_cases h : x < 0 ∨ 1 ≤ x
    · simp only [if_pos h]
    · simp only [if_neg h]
  icdf u h0 h1 := by
    obtain ⟨h, -, -, -, -⟩ := icdf_ok h0 h1
    simp only [uniform01Dist, if_neg h]
  lower := Or.inr ⟨0, by simp [uniform01Dist]⟩
  upper := Or.inr ⟨1, by simp [uniform01Dist]⟩
  order := by simp [uniform01Dist]
  below x h := by
    have hx : x ≤ 0 := by simpa [uniform01Dist] using h
    by_cases h : x < 0
    · exact if_pos h
    · have : x = 0 := le_antisymm hx (not_lt.1 h)
      rw [if_neg h, if_neg (by linarith), this]
  above x h := by
    have hx : 1 ≤ x := by simpa [uniform01Dist] using h
    rw [if_neg (by linarith), if_pos hx]
  mono x y h1 h2 h3 := by
    have hx : 0 < x := by simpa [uniform01Dist] using h1
    have hy : y < 1 := by simpa [uniform01Dist] using h3
    rw [if_neg (by linarith), if_neg (by linarith), if_neg (by linarith), if_neg (by linarith)]
    exact h2
  right u h0 h1 := by rw [if_neg (by linarith), if_neg (by linarith)]
  left x h1 h2 := by
    have hx : 0 < x := by simpa [uniform01Dist] using h1
    have hy : x < 1 := by simpa [uniform01Dist] using h2
    simp only [if_neg (show ¬ x < 0 by linarith), if_neg (show ¬ 1 ≤ x by linarith)]
    exact ⟨hx, hy, trivial⟩
  finite := (finite_singleton 1).insert 0
  deriv x hx := by
    simp only [mem_insert_iff, mem_singleton_iff, not_or] at hx
    rcases lt_or_gt_of_ne hx.1 with h | h
    · rw [if_pos (Or.inl h)]
      exact hasDerivAt_left h (hasDerivAt_const x (0 : ℝ)) fun y hy => if_pos hy
    · rcases lt_or_gt_of_ne hx.2 with h2 | h2
      · rw [if_neg (by rintro (h | h) <;> linarith)]
        refine hasDerivAt_between (g := fun y => y) h h2 (hasDerivAt_id x) fun y h1 h2 => ?_
        rw [if_neg (by linarith), if_neg (by linarith)]
      · rw [if_pos (Or.inr h2.le)]
        refine hasDerivAt_right h2 (hasDerivAt_const x (1 : ℝ)) fun y hy => ?_
        rw [if_neg (by linarith), if_pos hy.le]
  nonneg x _ := by
    split_ifs <;> norm_num

end Trng
