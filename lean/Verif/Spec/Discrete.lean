import Mathlib.Data.Nat.Choose.Sum
import Mathlib.Analysis.SpecialFunctions.Gamma.Basic

/-! Textbook probabilities of the discrete distributions. -/
namespace Trng.Spec
open scoped Nat

/-- The probability to find `x` white balls among `d` balls drawn without replacement from `n` balls, `m` of which are
white. -/
noncomputable def hypergeometric (n m d : ℕ) (x : ℤ) : ℝ :=
  if 0 ≤ x ∧ x ≤ d then (m.choose x.toNat * (n - m).choose (d - x.toNat) : ℕ) / (n.choose d : ℕ) else 0

/-- The probability of `x` successes in `n` trials. -/
noncomputable def binomial (p : ℝ) (n : ℕ) (x : ℤ) : ℝ :=
  if 0 ≤ x then (n.choose x.toNat : ℕ) * p ^ x.toNat * (1 - p) ^ (n - x.toNat) else 0

/-- Poisson probabilities. -/
noncomputable def poisson (mu : ℝ) (x : ℤ) : ℝ := if 0 ≤ x then Real.exp (-mu) * mu ^ x.toNat / (x.toNat)! else 0

/-- Poisson probabilities under the condition not to be 0. -/
noncomputable def ztPoisson (mu : ℝ) (x : ℤ) : ℝ := if 0 < x then poisson mu x / (1 - Real.exp (-mu)) else 0

/-- The probability of `x` failures before the `r`-th success, for real `r`. -/
noncomputable def negBinomial (p r : ℝ) (x : ℤ) : ℝ :=
  if 0 ≤ x then Real.Gamma (r + x.toNat) / (Real.Gamma r * (x.toNat)!) * p ^ r * (1 - p) ^ x.toNat else 0

/-- The probability of `x` failures before the first success. -/
noncomputable def geometric (p : ℝ) (x : ℤ) : ℝ := if 0 ≤ x then p * (1 - p) ^ x.toNat else 0

/-- The distribution function of integer-valued probabilities that are 0 for negative numbers. -/
noncomputable def cumulative (f : ℤ → ℝ) (x : ℤ) : ℝ := ∑ k ∈ Finset.range (x + 1).toNat, f k

end Trng.Spec
