import Verif.Spec.PeriodDiscrete
import Mathlib.Algebra.BigOperators.Fin

/-! What it means that successive samples of one period of an engine are independent. -/
namespace Trng.Spec
open XR Trng.Uniform
open Classical

variable {σ : Type}

/-- Over `T` calls from the state `e` on, every tuple of `d` successive numbers occurs equally often, up to a single call. -/
def TuplesEquidistributed (G : Gen σ) (e : σ) (T d : ℕ) : Prop :=
  0 < T ∧ ∃ c : ℕ, c * (G.max - G.min + 1) ^ d ≤ T + 1 ∧
    ∀ v : Fin d → ℕ, ((Finset.range T).filter fun k => ∀ i : Fin d, nth G.call e (k + i.val) = v i).card ≤ c

/-- All samples from the state `e` on are numbers, and the joint distribution of `d` successive samples is the product of `d` laws `F`: for all bounds
`t 0`, …, `t (d-1)` the fraction of those of the first `T` positions from which on `d` samples are at most `t 0`, …, `t (d-1)` is the product of the
`F (t i)`, up to `δ`. -/
structure JointlyFollow (sample : σ → XR × σ) (e : σ) (T d : ℕ) (F : ℝ → ℝ) (δ : ℝ) : Prop where
  number : ∀ k, ∃ r : ℝ, nth sample e k = fin r
  law : ∀ t : Fin d → ℝ, |(((Finset.range T).filter fun k => ∀ i : Fin d, nth sample e (k + i.val) ≤ fin (t i)).card : ℝ) / T - ∏ i, F (t i)| ≤ δ

/-- The same for integers `lo`, `lo + 1`, … with the probabilities `p`; the fraction of positions from which on the samples are `v 0`, …, `v (d-1)` is the
product of the `p (v i)`, up to `2 δ`. -/
structure IntegersJointly (sample : σ → Option ℤ × σ) (e : σ) (T d : ℕ) (lo : ℤ) (p : ℤ → ℝ) (δ : ℝ) : Prop where
  defined : ∀ k, ∃ n, nth sample e k = some n ∧ lo ≤ n
  atMost : ∀ t : Fin d → ℤ, |(((Finset.range T).filter fun k => ∀ i : Fin d, ∃ n, nth sample e (k + i.val) = some n ∧ n ≤ t i).card : ℝ) / T -
    ∏ i, upTo lo p (t i)| ≤ δ
  exactly : ∀ v : Fin d → ℤ, (∀ i, lo ≤ v i) →
    |(((Finset.range T).filter fun k => ∀ i : Fin d, nth sample e (k + i.val) = some (v i)).card : ℝ) / T - ∏ i, p (v i)| ≤ 2 * δ

/-! ### Several streams -/

/-- Over `T` calls of each of the `d` engines `es 0`, …, `es (d-1)`, every tuple of numbers that they return in the same call occurs equally often, up to a
single call. -/
def StreamsEquidistributed {d : ℕ} (G : Gen σ) (es : Fin d → σ) (T : ℕ) : Prop :=
  0 < T ∧ ∃ c : ℕ, c * (G.max - G.min + 1) ^ d ≤ T + 1 ∧
    ∀ v : Fin d → ℕ, ((Finset.range T).filter fun k => ∀ i : Fin d, nth G.call (es i) k = v i).card ≤ c

/-- The samples of each of the engines `es 0`, …, `es (d-1)` are numbers, and for all bounds `t 0`, …, `t (d-1)` the fraction of those of the first `T`
samples that are at most `t 0` for the first engine, …, at most `t (d-1)` for the last engine is the product of the `F (t i)`, up to `δ`. -/
structure StreamsFollow {d : ℕ} (sample : σ → XR × σ) (es : Fin d → σ) (T : ℕ) (F : ℝ → ℝ) (δ : ℝ) : Prop where
  number : ∀ i k, ∃ r : ℝ, nth sample (es i) k = fin r
  law : ∀ t : Fin d → ℝ, |(((Finset.range T).filter fun k => ∀ i : Fin d, nth sample (es i) k ≤ fin (t i)).card : ℝ) / T - ∏ i, F (t i)| ≤ δ

/-- The same for integers. -/
structure IntegerStreams {d : ℕ} (sample : σ → Option ℤ × σ) (es : Fin d → σ) (T : ℕ) (lo : ℤ) (p : ℤ → ℝ) (δ : ℝ) : Prop where
  defined : ∀ i k, ∃ n, nth sample (es i) k = some n ∧ lo ≤ n
  atMost : ∀ t : Fin d → ℤ, |(((Finset.range T).filter fun k => ∀ i : Fin d, ∃ n, nth sample (es i) k = some n ∧ n ≤ t i).card : ℝ) / T -
    ∏ i, upTo lo p (t i)| ≤ δ
  exactly : ∀ v : Fin d → ℤ, (∀ i, lo ≤ v i) →
    |(((Finset.range T).filter fun k => ∀ i : Fin d, nth sample (es i) k = some (v i)).card : ℝ) / T - ∏ i, p (v i)| ≤ 2 * δ

end Trng.Spec
