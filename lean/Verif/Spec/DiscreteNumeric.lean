import Verif.Spec.Discrete
import Mathlib.MeasureTheory.Measure.Lebesgue.Basic

/-! What it means that samples have a distribution up to an error of the distribution function. -/
namespace Trng.Spec
open MeasureTheory

/-- An integer-valued sampling function of a uniform deviate `u` inverts the distribution function `F` of `f` up to the error `d`:
a result is an `int` that is not negative, `u` is at most `F(k) + d` and at least `F(k-1) - d`; and the probability that the result
is at most `k` is `F(k)` up to `d`, for every `int` `k`. -/
def InvertsUpTo (draw : ℝ → Option ℤ) (f : ℤ → ℝ) (d : ℝ) : Prop :=
  (∀ u : ℝ, 0 ≤ u → u < 1 → ∀ k : ℤ, draw u = some k → 0 ≤ k ∧ k < 2 ^ 31 ∧ u ≤ cumulative f k + d ∧ (0 < k → cumulative f (k - 1) - d ≤ u)) ∧
  (∀ k : ℤ, 0 ≤ k → k < 2 ^ 31 →
    ENNReal.ofReal (cumulative f k - d) ≤ volume {u : ℝ | 0 ≤ u ∧ u < 1 ∧ ∃ j ≤ k, draw u = some j} ∧
    volume {u : ℝ | 0 ≤ u ∧ u < 1 ∧ ∃ j ≤ k, draw u = some j} ≤ ENNReal.ofReal (cumulative f k + d))

end Trng.Spec
