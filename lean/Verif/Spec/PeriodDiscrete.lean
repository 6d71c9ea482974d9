import Verif.Spec.PeriodLaw
import Verif.Spec.Discrete
import Mathlib.Data.Int.Interval
import Mathlib.Algebra.BigOperators.Group.Finset.Basic

/-! What it means that integer samples of one period of an engine follow a law. -/
namespace Trng.Spec
open Classical

variable {σ : Type}

/-- The probability of at most `t`, if `p` gives the probability of each integer from `lo` on. -/
noncomputable def upTo (lo : ℤ) (p : ℤ → ℝ) (t : ℤ) : ℝ := ∑ x ∈ Finset.Icc lo t, p x

/-- The first `T` samples from the state `e` on are defined and not below `lo`, for every `t` the fraction of those that are at most `t` is the
sum of the probabilities up to `t`, up to `δ`, and for every `v` the fraction of those that are `v` is the probability of `v`, up to `2 δ`. -/
structure IntegersFollow (sample : σ → Option ℤ × σ) (e : σ) (T : ℕ) (lo : ℤ) (p : ℤ → ℝ) (δ : ℝ) : Prop where
  defined : ∀ k, k < T → ∃ n, nth sample e k = some n ∧ lo ≤ n
  atMost : ∀ t, |(((Finset.range T).filter fun k => ∃ n, nth sample e k = some n ∧ n ≤ t).card : ℝ) / T - upTo lo p t| ≤ δ
  exactly : ∀ v, lo ≤ v → |(((Finset.range T).filter fun k => nth sample e k = some v).card : ℝ) / T - p v| ≤ 2 * δ

/-- The uniform distribution on the integers from `a` to `b - 1`. -/
noncomputable def uniformInt (a b x : ℤ) : ℝ := if a ≤ x ∧ x < b then 1 / (b - a : ℝ) else 0

/-- The distribution with the weights `w`. -/
noncomputable def weighted (w : List ℕ) (x : ℤ) : ℝ := if 0 ≤ x then (w.getD x.toNat 0 : ℝ) / (w.sum : ℝ) else 0

end Trng.Spec
