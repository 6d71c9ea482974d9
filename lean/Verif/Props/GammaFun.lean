import Verif.Proofs.GammaFormats
import Verif.Proofs.Continuous

/-! Property C80: the incomplete Gamma functions. -/
namespace Trng.Props
open XR Special Set MeasureTheory BetaSeries GammaSeries GammaFraction GammaFormats

/-! ### C80 -/

/-- Where `GammaP` and `GammaQ` use the asymptotic expansion. -/
def Central (L : Limits) (a x : ℝ) : Prop := L.digits10 < a ∧ 3 / 10 * a < x ∧ x < 235 / 100 * a

/-- C80: outside their domain all four functions are NaN. -/
theorem C80_domain (L : Limits) (asympt : XR → XR → XR) (byGamma : Bool) {a x : XR} (h : x < 0 ∨ a ≤ 0) :
    gammaP L asympt byGamma a x = nan ∧ gammaQ L asympt byGamma a x = nan := ⟨if_pos h, if_pos h⟩

/-- C80: for `4ε ≤ x < a + 1`, where the series is used, `GammaP(a, x)` is the regularised incomplete Gamma function with a
relative error of at most `4ε (digits10 + 1)`, never too large, and `GammaQ(a, x)` is its complement; `ε` is the machine
epsilon.  Missing: the asymptotic expansion and what follows for `x < 4ε`, see `C80_small_wrong`. -/
theorem C80_series_partial {L : Limits} (hL : L = .float ∨ L = .double ∨ L = .longDouble) (asympt : XR → XR → XR) {a x : ℝ} (ha : 0 < a)
    (hx : 4 * L.epsilon ≤ x) (hxa : x < a + 1) (hc : ¬Central L a x) :
    ∃ y : ℝ, gammaP L asympt true (fin a) (fin x) = fin y ∧ gammaQ L asympt true (fin a) (fin x) = fin (1 - y) ∧ 0 ≤ y ∧
      y ≤ Spec.regGamma a x ∧ Spec.regGamma a x ≤ y * (1 + 4 * L.epsilon * (L.digits10 + 1)) := by
  have h := ser_ok hL
  have h0 : 0 < L.epsilon := by rcases hL with rfl | rfl | rfl <;> norm_num [Limits.float, Limits.double, Limits.longDouble]
  have hx0 : 0 < x := by linarith
  have hreg : a ≤ L.digits10 ∨ x ≤ 3 / 10 * a := by
    by_contra hh
    push Not at hh
    refine hc ⟨hh.1, hh.2, ?_⟩
    have : (1 : ℝ) ≤ L.digits10 := by exact_mod_cast h.one
    linarith
  obtain ⟨y, e, h1, h2, h3⟩ := ser_accuracy L true ha hx0 hx h.eps hxa h.digits hreg h.prod h.geo
  simp only [if_true] at h2 h3
  have hd : ¬(fin x < 0 ∨ fin a ≤ 0) := by
    simp only [ofNat_fin, fin_lt, fin_le, Nat.cast_zero]; push Not; exact ⟨hx0.le, ha⟩
  have e3 : (3 / 10 : XR) = fin (3 / 10) := by simp only [ofNat_fin, Nat.cast_ofNat]; exact fin_div (by norm_num)
  have e4 : (235 / 100 : XR) = fin (235 / 100) := by simp only [ofNat_fin, Nat.cast_ofNat]; exact fin_div (by norm_num)
  have hc' : ¬(fin L.digits10 < fin a ∧ 3 / 10 * fin a < fin x ∧ fin x < 235 / 100 * fin a) := by
    rw [e3, e4]; simp only [fin_mul, fin_lt]; exact hc
  have hl : fin x < fin a + 1 := by rw [ofNat_fin, fin_add, fin_lt]; push_cast; exact hxa
  refine ⟨y, ?_, ?_, h1, ?_, ?_⟩
  · rw [gammaP, if_neg hd, if_pos rfl, if_neg hc', if_pos hl, e]
  · rw [gammaQ, if_neg hd, if_pos rfl, if_neg hc', if_pos hl, e, ofNat_fin, fin_sub, Nat.cast_one]
  · rw [regGamma_eq ha]; exact h2
  · rw [regGamma_eq ha]; linarith

/-- The hypotheses are met by `GammaP(3.f, 2.f)`. -/
example : ∃ y : ℝ, gammaP .float (fun _ _ => nan) true (fin 3) (fin 2) = fin y ∧ 0 ≤ y ∧ y ≤ Spec.regGamma 3 2 := by
  obtain ⟨y, h1, -, h2, h3, -⟩ := C80_series_partial (L := .float) (Or.inl rfl) (fun _ _ => nan) (a := 3) (x := 2) (by norm_num) (by norm_num [Limits.float]) (by norm_num)
    (by rintro ⟨h, -⟩; norm_num [Limits.float] at h)
  exact ⟨y, h1, h2, h3⟩

theorem upper_eq {a x : ℝ} : Spec.upperGamma a x = K a x 0 := by
  rw [Spec.upperGamma, K]
  refine integral_congr_ae (Filter.Eventually.of_forall fun t => ?_); simp [k]

theorem complement_reg {a x : ℝ} (ha : 0 < a) (hx : 0 ≤ x) : 1 - Spec.regGamma a x = K a x 0 / Real.Gamma a := by
  have h := complement ha hx
  have hG := Real.Gamma_pos_of_pos ha
  rw [regGamma_eq ha, ← h]
  rw [← h] at hG
  field_simp; ring

theorem fraction_aux {L : Limits} {z : ℕ} {κ : ℝ} (hz : 1 ≤ z) (hL : L = .float ∨ L = .double ∨ L = .longDouble) (hk : CfOk L z κ) (asympt : XR → XR → XR) {a x : ℝ} (ha : 0 < a)
    (hxa : a + z ≤ x) (hc : ¬Central L a x) :
    ∃ y : ℝ, gammaQ L asympt true (fin a) (fin x) = fin y ∧ gammaP L asympt true (fin a) (fin x) = fin (1 - y) ∧ 0 ≤ y ∧
      |y - (1 - Spec.regGamma a x)| ≤ κ * (1 - Spec.regGamma a x) := by
  have hz1 : (1 : ℝ) ≤ z := by exact_mod_cast hz
  have h := ser_ok hL
  have hx0 : 0 < x := by linarith
  have hreg : a ≤ L.digits + 1 ∨ 235 / 100 * a ≤ x := by
    by_contra hh
    push Not at hh
    refine hc ⟨?_, by linarith, hh.2⟩
    have : (L.digits10 : ℝ) ≤ L.digits := by exact_mod_cast h.sub
    linarith
  obtain ⟨g, g1, g2, g3, g4, g5⟩ := hk.ex
  obtain ⟨y, e, h1, h2⟩ := cf_accuracy L true hz ha hxa hreg h.digits hk.min hk.min1 hk.eps hk.eps1 g1 g2 g3 g4 g5
  simp only [if_true] at h2
  have hd : ¬(fin x < 0 ∨ fin a ≤ 0) := by
    simp only [ofNat_fin, fin_lt, fin_le, Nat.cast_zero]; push Not; exact ⟨hx0.le, ha⟩
  have e3 : (3 / 10 : XR) = fin (3 / 10) := by simp only [ofNat_fin, Nat.cast_ofNat]; exact fin_div (by norm_num)
  have e4 : (235 / 100 : XR) = fin (235 / 100) := by simp only [ofNat_fin, Nat.cast_ofNat]; exact fin_div (by norm_num)
  have hc' : ¬(fin L.digits10 < fin a ∧ 3 / 10 * fin a < fin x ∧ fin x < 235 / 100 * fin a) := by
    rw [e3, e4]; simp only [fin_mul, fin_lt]; exact hc
  have hl : ¬fin x < fin a + 1 := by rw [ofNat_fin, fin_add, fin_lt]; push_cast; linarith
  refine ⟨y, ?_, ?_, h1, ?_⟩
  · rw [gammaQ, if_neg hd, if_pos rfl, if_neg hc', if_neg hl, e]
  · rw [gammaP, if_neg hd, if_pos rfl, if_neg hc', if_neg hl, e, ofNat_fin, fin_sub, Nat.cast_one]
  · rw [complement_reg ha hx0.le]; exact h2

/-- C80: for `x ≥ a + 2`, where the continued fraction is used, `GammaQ(a, x)` is the complementary regularised incomplete Gamma
function with a relative error of at most `7ε (digits + 1)`, however small it is, and `GammaP(a, x)` is its complement.  Missing:
the asymptotic expansion. -/
theorem C80_fraction_partial {L : Limits} (hL : L = .float ∨ L = .double ∨ L = .longDouble) (asympt : XR → XR → XR) {a x : ℝ} (ha : 0 < a)
    (hxa : a + 2 ≤ x) (hc : ¬Central L a x) :
    ∃ y : ℝ, gammaQ L asympt true (fin a) (fin x) = fin y ∧ gammaP L asympt true (fin a) (fin x) = fin (1 - y) ∧ 0 ≤ y ∧
      |y - (1 - Spec.regGamma a x)| ≤ 7 * L.epsilon * (L.digits + 1) * (1 - Spec.regGamma a x) :=
  fraction_aux (z := 2) (by norm_num) hL (cf2_ok hL) asympt ha (by push_cast; exact hxa) hc

/-- C80: close to the series, for `a + 1 ≤ x < a + 2`, the relative error is at most `7ε (digits + 1)` for `float`, 10⁻¹⁰ for
`double` and 10⁻¹¹ for `long double`.  Missing: an error of the size of the machine epsilon, see `C80_fraction_wrong`. -/
theorem C80_near_partial {L : Limits} {κ : ℝ}
    (hL : (L = .float ∧ κ = 7 * Limits.float.epsilon * (Limits.float.digits + 1)) ∨ (L = .double ∧ κ = 1 / 10 ^ 10) ∨ (L = .longDouble ∧ κ = 1 / 10 ^ 11))
    (asympt : XR → XR → XR) {a x : ℝ} (ha : 0 < a) (hxa : a + 1 ≤ x) (hc : ¬Central L a x) :
    ∃ y : ℝ, gammaQ L asympt true (fin a) (fin x) = fin y ∧ gammaP L asympt true (fin a) (fin x) = fin (1 - y) ∧ 0 ≤ y ∧
      |y - (1 - Spec.regGamma a x)| ≤ κ * (1 - Spec.regGamma a x) := by
  rcases hL with ⟨rfl, rfl⟩ | ⟨rfl, rfl⟩ | ⟨rfl, rfl⟩
  · exact fraction_aux (z := 1) le_rfl (by simp) float_cf1 asympt ha (by push_cast; exact hxa) hc
  · exact fraction_aux (z := 1) le_rfl (by simp) double_cf1 asympt ha (by push_cast; exact hxa) hc
  · exact fraction_aux (z := 1) le_rfl (by simp) long_cf1 asympt ha (by push_cast; exact hxa) hc

/-- The hypotheses are met by `GammaQ(0.5, 20.)`, a small probability, and by `GammaQ(40., 100.)`. -/
example : (∃ y : ℝ, gammaQ .double (fun _ _ => nan) true (fin (1 / 2)) (fin 20) = fin y) ∧
    (∃ y : ℝ, gammaQ .double (fun _ _ => nan) true (fin 40) (fin 100) = fin y) := by
  constructor
  · obtain ⟨y, h, -⟩ := C80_fraction_partial (L := .double) (Or.inr (Or.inl rfl)) (fun _ _ => nan) (a := 1 / 2) (x := 20) (by norm_num) (by norm_num)
      (by rintro ⟨h, -⟩; norm_num [Limits.double] at h)
    exact ⟨y, h⟩
  · obtain ⟨y, h, -⟩ := C80_fraction_partial (L := .double) (Or.inr (Or.inl rfl)) (fun _ _ => nan) (a := 40) (x := 100) (by norm_num) (by norm_num)
      (by rintro ⟨-, -, h⟩; norm_num at h)
    exact ⟨y, h⟩

/-- C80: `inc_gamma(a, x)` and `inc_Gamma(a, x)`, which are not regularised, have the same accuracy for `a ≤ digits10`, where the
two always add up to Γ(a).  Missing: larger `a`, see `C80_many_wrong`, and `x < 4ε`. -/
theorem C80_incomplete_partial {L : Limits} (hL : L = .float ∨ L = .double ∨ L = .longDouble) (asympt : XR → XR → XR) {a x : ℝ} (ha : 0 < a)
    (haD : a ≤ L.digits10) (hx : 4 * L.epsilon ≤ x) :
    (x < a + 1 → ∃ y : ℝ, gammaP L asympt false (fin a) (fin x) = fin y ∧ gammaQ L asympt false (fin a) (fin x) = fin (Real.Gamma a - y) ∧ 0 ≤ y ∧
      y ≤ Spec.lowerGamma a x ∧ Spec.lowerGamma a x ≤ y * (1 + 4 * L.epsilon * (L.digits10 + 1))) ∧
    (a + 2 ≤ x → ∃ y : ℝ, gammaQ L asympt false (fin a) (fin x) = fin y ∧ gammaP L asympt false (fin a) (fin x) = fin (Real.Gamma a - y) ∧ 0 ≤ y ∧
      |y - Spec.upperGamma a x| ≤ 7 * L.epsilon * (L.digits + 1) * Spec.upperGamma a x) := by
  have h := ser_ok hL
  have h0 : 0 < L.epsilon := by rcases hL with rfl | rfl | rfl <;> norm_num [Limits.float, Limits.double, Limits.longDouble]
  have hx0 : 0 < x := by linarith
  have hd : ¬(fin x < 0 ∨ fin a ≤ 0) := by
    simp only [ofNat_fin, fin_lt, fin_le, Nat.cast_zero]; push Not; exact ⟨hx0.le, ha⟩
  constructor
  · intro hxa
    obtain ⟨y, e, h1, h2, h3⟩ := ser_accuracy L false ha hx0 hx h.eps hxa h.digits (Or.inl haD) h.prod h.geo
    simp only [Bool.false_eq_true, if_false, div_one] at h2 h3
    have hl : fin x < fin a + 1 := by rw [ofNat_fin, fin_add, fin_lt]; push_cast; exact hxa
    refine ⟨y, ?_, ?_, h1, h2, by linarith⟩
    · rw [gammaP, if_neg hd, if_neg (by simp), if_pos hl, e]
    · rw [gammaQ, if_neg hd, if_neg (by simp), if_pos hl, e, gamma_fin ha, fin_sub]
  · intro hxa
    have hk := cf2_ok hL
    obtain ⟨g, g1, g2, g3, g4, g5⟩ := hk.ex
    have hreg : a ≤ L.digits + 1 := by
      have : (L.digits10 : ℝ) ≤ L.digits := by exact_mod_cast h.sub
      linarith
    obtain ⟨y, e, h1, h2⟩ := cf_accuracy L false (z := 2) (by norm_num) ha (by push_cast; exact hxa) (Or.inl hreg) h.digits hk.min hk.min1 hk.eps hk.eps1 g1 g2 g3 g4 g5
    simp only [Bool.false_eq_true, if_false, div_one] at h2
    have hl : ¬fin x < fin a + 1 := by rw [ofNat_fin, fin_add, fin_lt]; push_cast; linarith
    refine ⟨y, ?_, ?_, h1, by rw [upper_eq]; exact h2⟩
    · rw [gammaQ, if_neg hd, if_neg (by simp), if_neg hl, e]
    · rw [gammaP, if_neg hd, if_neg (by simp), if_neg hl, e, gamma_fin ha, fin_sub]

/-- The hypotheses are met by `inc_gamma(5., 1.)` and `inc_Gamma(5., 10.)`. -/
example : (5 : ℝ) ≤ Limits.double.digits10 ∧ 4 * Limits.double.epsilon ≤ 1 ∧ (1 : ℝ) < 5 + 1 ∧ (5 + 2 : ℝ) ≤ 10 := by
  norm_num [Limits.double]

/-- C80 at the lower end: `GammaP(a, 0)` is 0 and `GammaQ(a, 0)` is 1. -/
theorem C80_zero {L : Limits} (hL : L = .float ∨ L = .double ∨ L = .longDouble) (asympt : XR → XR → XR) {a : ℝ} (ha : 0 < a) :
    gammaP L asympt true (fin a) (fin 0) = 0 ∧ gammaQ L asympt true (fin a) (fin 0) = 1 := by
  have h0 : 0 < L.epsilon := by rcases hL with rfl | rfl | rfl <;> norm_num [Limits.float, Limits.double, Limits.longDouble]
  have hd : ¬(fin 0 < 0 ∨ fin a ≤ 0) := by
    simp only [ofNat_fin, fin_lt, fin_le, Nat.cast_zero]; push Not; exact ⟨le_rfl, ha⟩
  have e3 : (3 / 10 : XR) = fin (3 / 10) := by simp only [ofNat_fin, Nat.cast_ofNat]; exact fin_div (by norm_num)
  have hc' : ¬(fin L.digits10 < fin a ∧ 3 / 10 * fin a < fin 0 ∧ fin 0 < 235 / 100 * fin a) := by
    rw [e3]; simp only [fin_mul, fin_lt]; rintro ⟨-, h, -⟩; linarith
  have hl : fin 0 < fin a + 1 := by rw [ofNat_fin, fin_add, fin_lt]; push_cast; linarith
  have hs : gammaPSer L true (fin a) (fin 0) = 0 := by
    rw [gammaPSer, if_pos]
    simp only [ofNat_fin, fin_mul, fin_lt, Nat.cast_ofNat]; linarith
  constructor
  · rw [gammaP, if_neg hd, if_pos rfl, if_neg hc', if_pos hl, hs]
  · rw [gammaQ, if_neg hd, if_pos rfl, if_neg hc', if_pos hl, hs]; simp only [ofNat_fin, fin_sub]; norm_num

theorem gamma_le_one {a : ℝ} (h0 : 0 ≤ a) (h1 : a ≤ 1) : Real.Gamma (1 + a) ≤ 1 := by
  have h := Real.convexOn_Gamma.2 (show (1 : ℝ) ∈ Ioi 0 by simp) (show (2 : ℝ) ∈ Ioi 0 by simp) (sub_nonneg.2 h1) h0 (by ring)
  simp only [smul_eq_mul, Real.Gamma_one, Real.Gamma_two] at h
  rw [show (1 - a) * 1 + a * 2 = 1 + a by ring] at h
  linarith

/-- C80 fails for small arguments: below `4ε` the series is cut off and the result is 0, also where the true value is not small at
all.  For `double`, `GammaP(2⁻¹⁰, 2⁻⁵¹)` is 0 and `GammaQ` 1, but the true values are more than 9/10 and less than 1/10. -/
theorem C80_small_wrong (asympt : XR → XR → XR) :
    gammaP .double asympt true (fin (2⁻¹ ^ 10)) (fin (2⁻¹ ^ 51)) = 0 ∧ gammaQ .double asympt true (fin (2⁻¹ ^ 10)) (fin (2⁻¹ ^ 51)) = 1 ∧
      9 / 10 < Spec.regGamma (2⁻¹ ^ 10) (2⁻¹ ^ 51) := by
  have hd : ¬(fin (2⁻¹ ^ 51) < 0 ∨ fin (2⁻¹ ^ 10) ≤ 0) := by
    simp only [ofNat_fin, fin_lt, fin_le, Nat.cast_zero]; norm_num
  have hc' : ¬(fin Limits.double.digits10 < fin (2⁻¹ ^ 10) ∧ 3 / 10 * fin (2⁻¹ ^ 10) < fin (2⁻¹ ^ 51) ∧ fin (2⁻¹ ^ 51) < 235 / 100 * fin (2⁻¹ ^ 10)) := by
    rintro ⟨h, -⟩; rw [fin_lt] at h; norm_num [Limits.double] at h
  have hl : fin (2⁻¹ ^ 51) < fin (2⁻¹ ^ 10) + 1 := by rw [ofNat_fin, fin_add, fin_lt]; norm_num
  have hs : gammaPSer .double true (fin (2⁻¹ ^ 10)) (fin (2⁻¹ ^ 51)) = 0 := by
    rw [gammaPSer, if_pos]
    simp only [ofNat_fin, fin_mul, fin_lt, Nat.cast_ofNat, double_eps]; norm_num
  refine ⟨?_, ?_, ?_⟩
  · rw [gammaP, if_neg hd, if_pos rfl, if_neg hc', if_pos hl, hs]
  · rw [gammaQ, if_neg hd, if_pos rfl, if_neg hc', if_pos hl, hs]; simp only [ofNat_fin, fin_sub]; norm_num
  · have ha : (0 : ℝ) < 2⁻¹ ^ 10 := by positivity
    have hx : (0 : ℝ) < 2⁻¹ ^ 51 := by positivity
    have h1 := lower_ge (a := 2⁻¹ ^ 10) (x := 2⁻¹ ^ 51) ha hx.le
    have hG := gamma_le_one (a := 2⁻¹ ^ 10) ha.le (by norm_num)
    have hG0 := Real.Gamma_pos_of_pos ha
    have e1 : ((2⁻¹ : ℝ) ^ 51) ^ ((2⁻¹ : ℝ) ^ 10) = Real.exp (-(51 / 1024 * Real.log 2)) := by
      rw [Real.rpow_def_of_pos hx, Real.log_pow, Real.log_inv]; congr 1; push_cast; ring
    have h2 : 1 - 51 / 1024 * Real.log 2 ≤ ((2⁻¹ : ℝ) ^ 51) ^ ((2⁻¹ : ℝ) ^ 10) := by
      rw [e1]; have := Real.add_one_le_exp (-(51 / 1024 * Real.log 2)); linarith
    have h3 : 1 - 2⁻¹ ^ 51 ≤ Real.exp (-(2⁻¹ : ℝ) ^ 51) := by have := Real.add_one_le_exp (-(2⁻¹ : ℝ) ^ 51); linarith
    have hl2 : Real.log 2 ≤ 1 := by have := Real.log_le_sub_one_of_pos (two_pos (α := ℝ)); linarith
    rw [regGamma_eq ha, lt_div_iff₀ hG0]
    rw [add_comm, Real.Gamma_add_one ha.ne'] at hG
    refine lt_of_lt_of_le ?_ h1
    rw [lt_div_iff₀ ha]
    have h4 : (95 / 100 : ℝ) ≤ ((2⁻¹ : ℝ) ^ 51) ^ ((2⁻¹ : ℝ) ^ 10) := by linarith
    have h5 : (99 / 100 : ℝ) ≤ Real.exp (-(2⁻¹ : ℝ) ^ 51) := le_trans (by norm_num) h3
    have h6 : (95 / 100 : ℝ) * (99 / 100) ≤ ((2⁻¹ : ℝ) ^ 51) ^ ((2⁻¹ : ℝ) ^ 10) * Real.exp (-(2⁻¹ : ℝ) ^ 51) :=
      mul_le_mul h4 h5 (by norm_num) (le_trans (by norm_num) h4)
    nlinarith

/-- C80 fails for `inc_gamma` with a large `a`: the series ends after `digits` terms.  For `double`, `inc_gamma(150., 150.)` is too
small by more than a millionth. -/
theorem C80_many_wrong (asympt : XR → XR → XR) : ∃ y : ℝ, gammaP .double asympt false (fin 150) (fin 150) = fin y ∧
    y < (1 - 1 / 10 ^ 6) * Spec.lowerGamma 150 150 := by
  obtain ⟨y, e, h⟩ := series_short
  refine ⟨y, ?_, h⟩
  rw [gammaP, if_neg, if_neg (by simp), if_pos, e]
  · rw [ofNat_fin, fin_add, fin_lt]; norm_num
  · simp only [ofNat_fin, fin_lt, fin_le, Nat.cast_zero]; norm_num

/-- C80 fails close to the series: also the continued fraction ends after `digits` steps.  For `double`, `GammaQ(2⁻²⁰, 1 + 2⁻²⁰)` is
too small by more than 10⁻¹³ of its value, 450 times the machine epsilon. -/
theorem C80_fraction_wrong (asympt : XR → XR → XR) : ∃ y : ℝ, gammaQ .double asympt true (fin (1 / 2 ^ 20)) (fin (1 + 1 / 2 ^ 20)) = fin y ∧
    y < (1 - 1 / 10 ^ 13) * (1 - Spec.regGamma (1 / 2 ^ 20) (1 + 1 / 2 ^ 20)) := by
  obtain ⟨y, e, h⟩ := fraction_short
  refine ⟨y, ?_, ?_⟩
  · rw [gammaQ, if_neg, if_pos rfl, if_neg, if_neg, e]
    · rw [ofNat_fin, fin_add, fin_lt]; norm_num
    · rintro ⟨h, -⟩; rw [fin_lt] at h; norm_num [Limits.double] at h
    · simp only [ofNat_fin, fin_lt, fin_le, Nat.cast_zero]; norm_num
  · rw [complement_reg (by norm_num) (by norm_num)]; exact h

/-- C80 fails at infinity: `GammaP(a, +∞)` and `GammaQ(a, +∞)` are NaN instead of 1 and 0. -/
theorem C80_infinity_wrong (L : Limits) (asympt : XR → XR → XR) {a : ℝ} (ha : 0 < a) : gammaP L asympt true (fin a) pinf = nan ∧ gammaQ L asympt true (fin a) pinf = nan := by
  have hd : ¬(pinf < 0 ∨ fin a ≤ 0) := by simp only [ofNat_fin, fin_le, not_pinf_lt_fin, false_or, Nat.cast_zero]; exact not_le.2 ha
  have e4 : (235 / 100 : XR) = fin (235 / 100) := by simp only [ofNat_fin, Nat.cast_ofNat]; exact fin_div (by norm_num)
  have hc : ¬(fin L.digits10 < fin a ∧ 3 / 10 * fin a < pinf ∧ pinf < 235 / 100 * fin a) := by rw [e4, fin_mul]; simp
  have hl : ¬pinf < fin a + 1 := by rw [ofNat_fin, fin_add]; simp
  have hq : gammaQCf L true (fin a) pinf = nan := by
    rw [gammaQCf]
    simp only [if_true, ln_pinf, fin_mul_pinf, infSign_pos ha, neg_pinf]
    rw [show (ninf + pinf : XR) = nan from rfl, nan_sub, exp_nan, nan_mul]
  constructor
  · rw [gammaP, if_neg hd, if_pos rfl, if_neg hc, if_neg hl, hq, sub_nan]
  · rw [gammaQ, if_neg hd, if_pos rfl, if_neg hc, if_neg hl, hq]

end Trng.Props
