import Verif.Spec.Continuous
import Verif.Spec.Special
import Verif.Model.BetaDists

/-! What the distributions built on incomplete Beta and Gamma functions have to do. -/
namespace Trng.Spec
open XR MeasureTheory Filter Topology

/-- C61 without the values at the infinities. -/
def CdfLaw (D : ContDist) : Prop :=
  ∃ F : ℝ → ℝ, (∀ x, D.cdf (fin x) = fin (F x)) ∧ Monotone F ∧ (∀ x, 0 ≤ F x ∧ F x ≤ 1) ∧
    (∀ x, fin x ≤ D.min → F x = 0) ∧ (∀ x, D.max ≤ fin x → F x = 1) ∧ Tendsto F atBot (𝓝 0) ∧ Tendsto F atTop (𝓝 1)

/-- The distribution function and the density of a positive random number, on the positive numbers only: the distribution
function increases from 0 to 1 and the density is its non-negative derivative. -/
def PositiveLaw (D : ContDist) : Prop :=
  ∃ F f : ℝ → ℝ, (∀ x, 0 ≤ x → D.cdf (fin x) = fin (F x)) ∧ (∀ x, 0 < x → D.pdf (fin x) = fin (f x)) ∧ F 0 = 0 ∧
    MonotoneOn F (Set.Ici 0) ∧ Tendsto F atTop (𝓝 1) ∧ (∀ x, 0 < x → 0 ≤ f x ∧ HasDerivAt F (f x) x) ∧
    (∀ x, 0 ≤ x → IntegrableOn f (Set.Ioc 0 x)) ∧ (∀ x, 0 ≤ x → ∫ t in Set.Ioc 0 x, f t = F x)

/-- For `u` in [e, 1-e] icdf gives a number of the support where cdf is `u` up to `d`; every sample lies between min and max;
for every finite `x` of the support the probability that a sample is at most `x` is `cdf(x)` up to `d`, the deviate being
distributed uniformly. -/
def InverseOn (D : ContDist) (d e : ℝ) : Prop :=
  (∀ u : ℝ, e ≤ u → u ≤ 1 - e → ∃ y q : ℝ, D.icdf (fin u) = fin y ∧ D.min ≤ fin y ∧ fin y ≤ D.max ∧ D.cdf (fin y) = fin q ∧ |q - u| ≤ d) ∧
  (∀ u ∈ D.deviate, D.min ≤ D.draw (fin u) ∧ D.draw (fin u) ≤ D.max) ∧
  (∀ x : ℝ, D.min ≤ fin x → ∃ p : ℝ, D.cdf (fin x) = fin p ∧
    ENNReal.ofReal (p - d) ≤ volume {u : ℝ | u ∈ D.deviate ∧ D.draw (fin u) ≤ fin x} ∧
    volume {u : ℝ | u ∈ D.deviate ∧ D.draw (fin u) ≤ fin x} ≤ ENNReal.ofReal (p + d))

/-- `BI` is the regularised incomplete Beta function at `p`, `q`, given the Beta function as its norm. -/
def IsBetaI (BI : BetaFun) (p q : ℝ) : Prop :=
  ∀ x : ℝ, 0 ≤ x → x ≤ 1 → BI (fin x) (fin p) (fin q) (fin (beta p q)) = some (fin (regBeta x p q))

/-- `inv` inverts the regularised incomplete Beta function at `p`, `q` up to an error `d` of the probability; probabilities
below `e` and above `1 - e` give 0 and 1. -/
def InvertsBeta (inv : BetaFun) (p q d e : ℝ) : Prop :=
  ∀ u : ℝ, 0 ≤ u → u ≤ 1 → ∃ t : ℝ, inv (fin u) (fin p) (fin q) (fin (beta p q)) = some (fin t) ∧ |regBeta t p q - u| ≤ d ∧
    (u < e → t = 0) ∧ (1 - e < u → t = 1) ∧ (e ≤ u → u ≤ 1 - e → 0 < t ∧ t < 1)

end Trng.Spec
