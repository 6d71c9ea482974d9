import Mathlib.MeasureTheory.Measure.Lebesgue.Basic

/-! What it means that a sampling function of a uniform deviate follows a law. -/
namespace Trng.Spec
open MeasureTheory

/-- The integer-valued sampling function `f` of a deviate, uniform in `[0, 1)`, is defined for every deviate and
returns `k` with probability `p k`. -/
structure DiscreteLaw (f : ℝ → Option ℤ) (p : ℤ → ℝ) : Prop where
  defined : ∀ u, 0 ≤ u → u < 1 → (f u).isSome
  prob : ∀ k, volume {u : ℝ | 0 ≤ u ∧ u < 1 ∧ f u = some k} = ENNReal.ofReal (p k)

end Trng.Spec
