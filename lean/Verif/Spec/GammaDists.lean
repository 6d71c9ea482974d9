import Verif.Spec.BetaDists
import Verif.Model.GammaDists

/-! What the distributions built on incomplete Gamma functions rely on. -/
namespace Trng.Spec
open XR MeasureTheory

/-- `GP` is the regularised incomplete Gamma function at `a`. -/
def IsGammaP (GP : XR → XR → XR) (a : ℝ) : Prop := ∀ x : ℝ, 0 ≤ x → GP (fin a) (fin x) = fin (regGamma a x)

/-- `inv` inverts the regularised incomplete Gamma function at `a` up to an error `d` of the probability, for all probabilities
strictly between 0 and 1. -/
def InvertsGamma (inv : XR → XR → XR) (a d : ℝ) : Prop :=
  ∀ u : ℝ, 0 < u → u < 1 → ∃ y : ℝ, inv (fin a) (fin u) = fin y ∧ 0 < y ∧ |regGamma a y - u| ≤ d

/-- For `u` in (0,1) icdf gives a number inside the support where cdf is `u` up to `d`; every sample from a deviate other than 0
lies inside the support; for every finite `x` of the support the probability that a sample is at most `x` is `cdf(x)` up to `d`,
the deviate being distributed uniformly. -/
def InverseInside (D : ContDist) (d : ℝ) : Prop :=
  (∀ u : ℝ, 0 < u → u < 1 → ∃ y q : ℝ, D.icdf (fin u) = fin y ∧ D.min < fin y ∧ fin y < D.max ∧ D.cdf (fin y) = fin q ∧ |q - u| ≤ d) ∧
  (∀ u ∈ D.deviate, u ≠ 0 → ∃ y : ℝ, D.draw (fin u) = fin y ∧ D.min < fin y ∧ fin y < D.max) ∧
  (∀ x : ℝ, D.min ≤ fin x → ∃ p : ℝ, D.cdf (fin x) = fin p ∧
    ENNReal.ofReal (p - d) ≤ volume {u : ℝ | u ∈ D.deviate ∧ D.draw (fin u) ≤ fin x} ∧
    volume {u : ℝ | u ∈ D.deviate ∧ D.draw (fin u) ≤ fin x} ≤ ENNReal.ofReal (p + d))

end Trng.Spec
