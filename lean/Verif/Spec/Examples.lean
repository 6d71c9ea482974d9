import Verif.Model.Examples
/-! Specification for C83: which executions of `parallel_reduce` are possible. -/
namespace Trng.Examples

/-- The ranges a task works on, in order, are consecutive and lead from `lo` to `hi`. -/
def Task.Covers : Task → Nat → Nat → Prop
  | .range a b, lo, hi => a = lo ∧ b = hi ∧ lo ≤ hi
  | .seq s t, lo, hi => ∃ m, s.Covers lo m ∧ t.Covers m hi
  | .fork s t, lo, hi => ∃ m, s.Covers lo m ∧ t.Covers m hi

end Trng.Examples
