import Verif.Spec.Continuous
import Verif.Model.Normal

/-! What the normal distribution function, its inverse and the distributions built on them have to do. -/
namespace Trng.Spec
open XR MeasureTheory Filter Topology

/-- The probability that a standard normal variate is at most `y`. -/
noncomputable def stdNormal (y : ℝ) : ℝ := ∫ t in Set.Iic y, Real.exp (-t ^ 2 / 2) / Real.sqrt (2 * Real.pi)

/-- `inv` inverts the normal distribution function on (0,1) up to an error `d` of the probability. -/
def InvertsNormal (inv : XR → XR) (d : ℝ) : Prop :=
  ∀ u : ℝ, 0 < u → u < 1 → ∃ y : ℝ, inv (fin u) = fin y ∧ |stdNormal y - u| ≤ d

/-- C73: at every `u` in (0,1) icdf gives a number of the support where cdf is `u` up to `d`, and for every `x` in `S` the
probability that a sample is at most `x` is `cdf(x)` up to `d`, the deviate being distributed uniformly. -/
def InverseWithin (D : ContDist) (d : ℝ) (S : Set ℝ) : Prop :=
  (∀ u : ℝ, 0 < u → u < 1 → ∃ y q : ℝ, D.icdf (fin u) = fin y ∧ D.cdf (fin y) = fin q ∧ |q - u| ≤ d) ∧
  (∀ u ∈ D.deviate, ∃ y : ℝ, D.draw (fin u) = fin y) ∧
  (∀ x ∈ S, ∃ p : ℝ, D.cdf (fin x) = fin p ∧
    ENNReal.ofReal (p - d) ≤ volume {u : ℝ | u ∈ D.deviate ∧ D.draw (fin u) ≤ fin x} ∧
    volume {u : ℝ | u ∈ D.deviate ∧ D.draw (fin u) ≤ fin x} ≤ ENNReal.ofReal (p + d))

end Trng.Spec
