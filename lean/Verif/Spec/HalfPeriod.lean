import Verif.Spec.Independence

/-! What it means that streams are nearly independent over a period. -/
namespace Trng.Spec
open Trng.Uniform
open Classical

/-- Over `T` calls of each of the `d` engines `es 0`, …, `es (d-1)`, the tuple of numbers that they return in the same call lies in each set `W` of tuples as
often as if all tuples of numbers of the engine's range were equally frequent, up to the fraction `η` of all calls. -/
def StreamsNearly {σ : Type} {d : ℕ} (G : Gen σ) (es : Fin d → σ) (T : ℕ) (η : ℝ) : Prop :=
  0 < T ∧ ∀ W : Finset (Fin d → ℕ), (∀ v ∈ W, ∀ i, G.min ≤ v i ∧ v i ≤ G.max) →
    |(((Finset.range T).filter fun k => (fun i => nth G.call (es i) k) ∈ W).card : ℝ) / T - (W.card : ℝ) / ((G.max - G.min + 1 : ℕ) : ℝ) ^ d| ≤ η

end Trng.Spec
