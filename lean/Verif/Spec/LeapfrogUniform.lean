import Verif.Spec.PeriodLaw
import Mathlib.Algebra.BigOperators.Group.Finset.Basic

/-! What it means that the streams of a parallel program are together as uniform as one engine. -/
namespace Trng.Spec
open Trng.Uniform
open Classical

variable {σ : Type}

/-- `T` calls of each of the streams `E 0`, …, `E (s-1)`: all values together, every number from `min()` to `max()` is returned equally often, up to
one call per stream. -/
def PooledEquidistributed (G : Gen σ) (E : ℕ → σ) (s T : ℕ) : Prop :=
  0 < T ∧ ∃ c : ℕ, c * (G.max - G.min + 1) ≤ T + 1 ∧
    ∀ v, ∑ n ∈ Finset.range s, ((Finset.range T).filter fun k => nth G.call (E n) k = v).card ≤ s * c

end Trng.Spec
