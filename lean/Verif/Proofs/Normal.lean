import Verif.Model.Normal
import Verif.Proofs.ClosedForms
import Mathlib.Analysis.SpecialFunctions.Gaussian.GaussianIntegral
import Mathlib.MeasureTheory.Integral.IntervalIntegral.FundThmCalculus

/-! The normal distribution function. -/
namespace Trng
open XR MeasureTheory Filter Topology Set
open Classical

/-! ### The error function -/

theorem continuous_gauss : Continuous fun t : ℝ => Real.exp (-t ^ 2) := by fun_prop

theorem hasDerivAt_erfR (x : ℝ) : HasDerivAt erfR (2 / Real.sqrt Real.pi * Real.exp (-x ^ 2)) x :=
  (intervalIntegral.integral_hasDerivAt_right (continuous_gauss.intervalIntegrable _ _) (continuous_gauss.stronglyMeasurableAtFilter _ _)
    continuous_gauss.continuousAt).const_mul _

@[simp] theorem erfR_zero : erfR 0 = 0 := by simp [erfR]

theorem erfR_neg (x : ℝ) : erfR (-x) = -erfR x := by
  rw [erfR, erfR]
  have : ∫ t in (0 : ℝ)..-x, Real.exp (-t ^ 2) = -∫ t in (0 : ℝ)..x, Real.exp (-t ^ 2) := by
    have h := intervalIntegral.integral_comp_neg (a := 0) (b := x) (fun t : ℝ => Real.exp (-t ^ 2))
    simp only [even_two, Even.neg_pow, neg_zero] at h
    rw [h, intervalIntegral.integral_symm]
  rw [this]; ring

theorem tendsto_erfR_top : Tendsto erfR atTop (𝓝 1) := by
  have hi : IntegrableOn (fun t : ℝ => Real.exp (-t ^ 2)) (Ioi 0) := by
    have := (integrable_exp_neg_mul_sq (b := 1) one_pos).integrableOn (s := Ioi 0)
    simpa using this
  have h := intervalIntegral_tendsto_integral_Ioi (b := fun y : ℝ => y) 0 hi tendsto_id
  have e : ∫ t in Ioi (0 : ℝ), Real.exp (-t ^ 2) = Real.sqrt Real.pi / 2 := by
    have := integral_gaussian_Ioi 1
    simpa using this
  rw [e] at h
  have := h.const_mul (2 / Real.sqrt Real.pi)
  rwa [show 2 / Real.sqrt Real.pi * (Real.sqrt Real.pi / 2) = 1 by
    have : Real.sqrt Real.pi ≠ 0 := by positivity
    field_simp] at this

theorem tendsto_erfR_bot : Tendsto erfR atBot (𝓝 (-1)) := by
  have h := (tendsto_erfR_top.comp tendsto_neg_atBot_atTop).neg
  refine h.congr fun x => ?_
  simp [erfR_neg]

theorem strictMono_erfR : StrictMono erfR :=
  strictMono_of_hasDerivAt_pos hasDerivAt_erfR fun x => by positivity

theorem continuous_erfR : Continuous erfR :=
  continuous_iff_continuousAt.2 fun x => (hasDerivAt_erfR x).continuousAt

theorem erfR_lt_one (x : ℝ) : erfR x < 1 :=
  lt_of_lt_of_le (strictMono_erfR (lt_add_one x)) (strictMono_erfR.monotone.ge_of_tendsto tendsto_erfR_top _)
theorem neg_one_lt_erfR (x : ℝ) : -1 < erfR x := by
  have := erfR_lt_one (-x)
  rw [erfR_neg] at this; linarith

/-! ### The normal distribution function -/

/-- The normal distribution function. -/
noncomputable def PhiR (x : ℝ) : ℝ := 1 / 2 + 1 / 2 * erfR (x / Real.sqrt 2)
/-- The standard normal density. -/
noncomputable def phiR (x : ℝ) : ℝ := 1 / Real.sqrt (2 * Real.pi) * Real.exp (-x * x / 2)

theorem phiR_pos (x : ℝ) : 0 < phiR x := by unfold phiR; positivity

theorem hasDerivAt_PhiR (x : ℝ) : HasDerivAt PhiR (phiR x) x := by
  have h1 : HasDerivAt (fun y : ℝ => y / Real.sqrt 2) (1 / Real.sqrt 2) x := (hasDerivAt_id x).div_const _
  have h2 := ((HasDerivAt.comp x (hasDerivAt_erfR (x / Real.sqrt 2)) h1).const_mul (1 / 2)).const_add (1 / 2)
  refine h2.congr_deriv ?_
  have e : (x / Real.sqrt 2) ^ 2 = x * x / 2 := by
    rw [div_pow, Real.sq_sqrt (by norm_num)]; ring
  rw [phiR, e, Real.sqrt_mul (by norm_num), show -x * x / 2 = -(x * x / 2) by ring]
  have : Real.sqrt 2 ≠ 0 := by positivity
  have : Real.sqrt Real.pi ≠ 0 := by positivity
  field_simp

theorem strictMono_PhiR : StrictMono PhiR := strictMono_of_hasDerivAt_pos hasDerivAt_PhiR phiR_pos
theorem continuous_PhiR : Continuous PhiR := continuous_iff_continuousAt.2 fun x => (hasDerivAt_PhiR x).continuousAt
theorem PhiR_pos (x : ℝ) : 0 < PhiR x := by
  have := neg_one_lt_erfR (x / Real.sqrt 2)
  unfold PhiR; linarith
theorem PhiR_lt_one (x : ℝ) : PhiR x < 1 := by
  have := erfR_lt_one (x / Real.sqrt 2)
  unfold PhiR; linarith
theorem PhiR_neg (x : ℝ) : PhiR (-x) = 1 - PhiR x := by
  rw [PhiR, PhiR, neg_div, erfR_neg]; ring

theorem tendsto_PhiR_top : Tendsto PhiR atTop (𝓝 1) := by
  have h : Tendsto (fun x : ℝ => x / Real.sqrt 2) atTop atTop := tendsto_id.atTop_div_const (by positivity)
  have := ((tendsto_erfR_top.comp h).const_mul (1 / 2)).const_add (1 / 2)
  norm_num at this
  exact this.congr fun x => by simp [PhiR]
theorem tendsto_PhiR_bot : Tendsto PhiR atBot (𝓝 0) := by
  have h := (tendsto_PhiR_top.comp tendsto_neg_atBot_atTop).const_sub 1
  rw [sub_self] at h
  refine h.congr fun x => ?_
  simp [PhiR_neg]

theorem exists_PhiR {u : ℝ} (h0 : 0 < u) (h1 : u < 1) : ∃ y, PhiR y = u := by
  have hl : ∃ y, PhiR y ≤ u := ((tendsto_PhiR_bot.eventually_lt_const h0).exists).imp fun _ h => h.le
  have hr : ∃ y, u ≤ PhiR y := ((tendsto_PhiR_top.eventually_const_lt h1).exists).imp fun _ h => h.le
  exact mem_range_of_exists_le_of_exists_ge continuous_PhiR hl hr

/-- The inverse of the normal distribution function. -/
noncomputable def PhiInv (u : ℝ) : ℝ := if h : 0 < u ∧ u < 1 then (exists_PhiR h.1 h.2).choose else 0

theorem PhiR_PhiInv {u : ℝ} (h0 : 0 < u) (h1 : u < 1) : PhiR (PhiInv u) = u := by
  rw [PhiInv, dif_pos ⟨h0, h1⟩]
  exact (exists_PhiR h0 h1).choose_spec
theorem PhiInv_PhiR (x : ℝ) : PhiInv (PhiR x) = x :=
  strictMono_PhiR.injective (PhiR_PhiInv (PhiR_pos x) (PhiR_lt_one x))

/-! ### The code's `Phi` -/

namespace XR
@[simp] theorem erf_fin (x : ℝ) : erf (fin x) = fin (erfR x) := rfl
@[simp] theorem erfc_fin (x : ℝ) : erfc (fin x) = fin (1 - erfR x) := rfl
@[simp] theorem erf_nan : erf nan = nan := rfl
@[simp] theorem erfc_nan : erfc nan = nan := rfl
@[simp] theorem erf_pinf : erf pinf = fin 1 := rfl
@[simp] theorem erf_ninf : erf ninf = fin (-1) := rfl
@[simp] theorem erfc_pinf : erfc pinf = fin 0 := rfl
@[simp] theorem erfc_ninf : erfc ninf = fin 2 := rfl
end XR

@[simp] theorem Phi_fin (x : ℝ) : Phi (fin x) = fin (PhiR x) := by
  unfold Phi oneOverSqrt2
  xr
  rw [show x * (1 / Real.sqrt 2) = x / Real.sqrt 2 by ring]
  by_cases h1 : x / Real.sqrt 2 < -0.6744897501960817 * (1 / Real.sqrt 2)
  · rw [if_pos h1]
    simp only [erfc_fin, fin_mul, erfR_neg, fin_inj, PhiR]; ring
  rw [if_neg h1]
  by_cases h2 : 0.6744897501960817 * (1 / Real.sqrt 2) < x / Real.sqrt 2
  · rw [if_pos h2]
    simp only [erfc_fin, fin_mul, fin_sub, fin_inj, PhiR]; ring
  · rw [if_neg h2]
    simp only [erf_fin, fin_mul, fin_add, fin_inj, PhiR]; ring

@[simp] theorem Phi_pinf : Phi pinf = fin 1 := by
  have h : (0 : ℝ) < 1 / Real.sqrt 2 := by positivity
  unfold Phi oneOverSqrt2
  rw [pinf_mul_fin, infSign_pos h]
  simp
@[simp] theorem Phi_ninf : Phi ninf = fin 0 := by
  have h : (0 : ℝ) < 1 / Real.sqrt 2 := by positivity
  unfold Phi oneOverSqrt2
  rw [ninf_mul_fin, infSign_neg (by linarith)]
  simp
@[simp] theorem Phi_nan : Phi nan = nan := by
  unfold Phi oneOverSqrt2
  simp

end Trng
