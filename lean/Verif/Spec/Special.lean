import Mathlib.Analysis.SpecialFunctions.Pow.Real
import Mathlib.MeasureTheory.Integral.IntervalIntegral.Basic

/-! The special functions that trng/special_functions.hpp promises, as integrals. -/
namespace Trng.Spec
noncomputable section

/-- The Beta function. -/
def beta (p q : ℝ) : ℝ := ∫ t in (0 : ℝ)..1, t ^ (p - 1) * (1 - t) ^ (q - 1)

/-- The regularised incomplete Beta function. -/
def regBeta (x p q : ℝ) : ℝ := (∫ t in (0 : ℝ)..x, t ^ (p - 1) * (1 - t) ^ (q - 1)) / beta p q

/-- The lower incomplete Gamma function. -/
def lowerGamma (a x : ℝ) : ℝ := ∫ t in (0 : ℝ)..x, t ^ (a - 1) * Real.exp (-t)

/-- The upper incomplete Gamma function. -/
def upperGamma (a x : ℝ) : ℝ := ∫ t in Set.Ioi x, t ^ (a - 1) * Real.exp (-t)

/-- The regularised lower incomplete Gamma function. -/
def regGamma (a x : ℝ) : ℝ := lowerGamma a x / ∫ t in Set.Ioi (0 : ℝ), t ^ (a - 1) * Real.exp (-t)

end
end Trng.Spec
