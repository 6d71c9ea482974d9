import Verif.Proofs.InvGammaEnds
import Verif.Props.GammaFun
import Mathlib.Analysis.SpecialFunctions.Gamma.BohrMollerup

/-! Proofs for the incomplete Gamma functions over their whole domain. -/
namespace Trng.GammaAll
open XR Special Set MeasureTheory BetaSeries GammaSeries
variable {a x : ℝ}

/-- The lower incomplete Gamma function is at most that without the exponential. -/
theorem lower_le (ha : 0 < a) (hx : 0 ≤ x) : Spec.lowerGamma a x ≤ x ^ a / a := by
  rw [Spec.lowerGamma]
  have hi : IntervalIntegrable (fun t : ℝ => t ^ (a - 1)) volume 0 x := intervalIntegral.intervalIntegrable_rpow' (by linarith)
  have e : ∫ t in (0 : ℝ)..x, t ^ (a - 1) = x ^ a / a := by
    rw [integral_rpow (Or.inl (by linarith)), sub_add_cancel, Real.zero_rpow ha.ne', sub_zero]
  rw [← e]
  refine intervalIntegral.integral_mono_on hx (hi.mul_continuousOn (by fun_prop)) hi fun t ht => ?_
  have h1 : Real.exp (-t) ≤ 1 := Real.exp_le_one_iff.2 (by linarith [ht.1])
  exact mul_le_of_le_one_right (Real.rpow_nonneg ht.1 _) h1

/-- For `a ≥ 1` and `x ≤ 1` the regularised incomplete Gamma function is at most `x ^ a`. -/
theorem reg_le_rpow (ha : 1 ≤ a) (hx : 0 ≤ x) : Spec.regGamma a x ≤ x ^ a := by
  have ha0 : 0 < a := by linarith
  have hG := Real.Gamma_pos_of_pos ha0
  have h2 : (1 : ℝ) ≤ a * Real.Gamma a := by
    rw [← Real.Gamma_add_one ha0.ne']
    have h : (2 : ℝ) ≤ a + 1 := by linarith
    have := Real.Gamma_strictMonoOn_Ici.monotoneOn (mem_Ici.2 le_rfl) (mem_Ici.2 h) h
    rwa [Real.Gamma_two] at this
  rw [regGamma_eq ha0, div_le_iff₀ hG]
  refine (lower_le ha0 hx).trans ?_
  rw [div_le_iff₀ ha0]
  have := Real.rpow_nonneg hx a
  nlinarith

theorem reg_le (ha : 1 ≤ a) (hx : 0 ≤ x) (hx1 : x ≤ 1) : Spec.regGamma a x ≤ x := by
  refine (reg_le_rpow ha hx).trans ?_
  rcases hx.eq_or_lt with rfl | h
  · rw [Real.zero_rpow (by linarith)]
  · simpa using Real.rpow_le_rpow_of_exponent_ge h hx1 ha

end Trng.GammaAll

namespace Trng.Props
open XR Special

/-- Outside the centre the asymptotic functions are not used. -/
theorem gammaP_asympt_irrelevant {L : Limits} {a x : ℝ} (ha : 0 < a) (hx : 0 ≤ x) (hc : ¬Central L a x) (f g : XR → XR → XR) :
    gammaP L f true (fin a) (fin x) = gammaP L g true (fin a) (fin x) := by
  have hd : ¬(fin x < 0 ∨ fin a ≤ 0) := by
    simp only [ofNat_fin, fin_lt, fin_le, Nat.cast_zero]; push Not; exact ⟨hx, ha⟩
  have e3 : (3 / 10 : XR) = fin (3 / 10) := by simp only [ofNat_fin, Nat.cast_ofNat]; exact fin_div (by norm_num)
  have e4 : (235 / 100 : XR) = fin (235 / 100) := by simp only [ofNat_fin, Nat.cast_ofNat]; exact fin_div (by norm_num)
  have hc' : ¬(fin L.digits10 < fin a ∧ 3 / 10 * fin a < fin x ∧ fin x < 235 / 100 * fin a) := by
    rw [e3, e4]; simp only [fin_mul, fin_lt]; exact hc
  rw [gammaP, gammaP, if_neg hd, if_neg hd, if_pos rfl, if_pos rfl, if_neg hc', if_neg hc']

end Trng.Props
