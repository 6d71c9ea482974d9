import Verif.Spec.Float
import Verif.Model.Uniform

namespace Trng.Uniform

/-- What an engine promises: results between `min()` and `max()`, a range that fits 64 bits. -/
structure Gen.Sound {σ : Type} (G : Gen σ) : Prop where
  lt : G.min < G.max
  small : G.max - G.min < 2 ^ 64
  range : ∀ s, G.min ≤ (G.call s).1 ∧ (G.call s).1 ≤ G.max

end Trng.Uniform
