import Verif.Model.Continuous
import Mathlib.MeasureTheory.Measure.Lebesgue.Basic
import Mathlib.MeasureTheory.Integral.Bochner.Set
import Mathlib.Analysis.Calculus.Deriv.Basic

/-! What the pdf, cdf, icdf and samples of a continuous distribution have to do with each other. -/
namespace Trng.Spec
open XR MeasureTheory Filter Topology

/-- C59: the inverse distribution function takes every `u` in (0,1) to a point of the support where the distribution
function is `u`, and inverts the distribution function on the interior of the support. -/
def InverseCdf (D : ContDist) : Prop :=
  (∀ u : ℝ, 0 < u → u < 1 → ∃ y : ℝ, D.icdf (fin u) = fin y ∧ D.min < fin y ∧ fin y < D.max ∧ D.cdf (fin y) = fin u) ∧
  (∀ x : ℝ, D.min < fin x → fin x < D.max → D.icdf (D.cdf (fin x)) = fin x)

/-- C60: away from the points of `B` (the ends of the support) the density is finite, non-negative and the derivative of
the distribution function, and the distribution function is its integral. -/
def HasDensity (D : ContDist) (B : Set ℝ) : Prop :=
  ∃ F f : ℝ → ℝ, (∀ x, D.cdf (fin x) = fin (F x)) ∧ (∀ x, x ∉ B → D.pdf (fin x) = fin (f x)) ∧
    (∀ x, x ∉ B → 0 ≤ f x) ∧ (∀ x, x ∉ B → HasDerivAt F (f x) x) ∧
    (∀ x, IntegrableOn f (Set.Iic x)) ∧ (∀ x, ∫ t in Set.Iic x, f t = F x)

/-- C61: the distribution function is non-decreasing, between 0 and 1, 0 up to the lower end of the support and 1 from the
upper end on, and has the limits 0 and 1, also as the values at the infinities. -/
def IsCdf (D : ContDist) : Prop :=
  ∃ F : ℝ → ℝ, (∀ x, D.cdf (fin x) = fin (F x)) ∧ Monotone F ∧ (∀ x, 0 ≤ F x ∧ F x ≤ 1) ∧
    (∀ x, fin x ≤ D.min → F x = 0) ∧ (∀ x, D.max ≤ fin x → F x = 1) ∧
    Tendsto F atBot (𝓝 0) ∧ Tendsto F atTop (𝓝 1) ∧ D.cdf ninf = 0 ∧ D.cdf pinf = 1

/-- C62: every sample is a number between `min` and `max`, and is at most `x` with probability `cdf(x)`, the deviate being
distributed uniformly. -/
def Sampled (D : ContDist) : Prop :=
  (∀ u ∈ D.deviate, ∃ y : ℝ, D.draw (fin u) = fin y ∧ D.min ≤ fin y ∧ fin y ≤ D.max) ∧
  (∀ x : ℝ, ∃ p : ℝ, D.cdf (fin x) = fin p ∧ 0 ≤ p ∧ volume {u : ℝ | u ∈ D.deviate ∧ D.draw (fin u) ≤ fin x} = ENNReal.ofReal p)

/-- C63: outside [0,1], and for NaN, the inverse distribution function is NaN; at 0 and 1 it gives the ends of the support. -/
def IcdfDomain (D : ContDist) : Prop :=
  (∀ x : XR, ¬(0 ≤ x ∧ x ≤ 1) → D.icdf x = nan) ∧ D.icdf 0 = D.min ∧ D.icdf 1 = D.max

end Trng.Spec
