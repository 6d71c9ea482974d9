import Verif.Spec.Engine
import Verif.Spec.Uniform
import Verif.Spec.RoundedInverse
import Mathlib.Data.Finset.Card
import Mathlib.Data.Finset.Range

/-! What it means that the samples of one period of an engine follow a law. -/
namespace Trng.Spec
open XR Trng.Uniform
open Classical

variable {σ : Type}

/-- Over `T` calls from the state `e` on, every number from `min()` to `max()` is returned equally often, up to a single call: no number
more than `c` times, where `T` is the number of these numbers times `c`, or less by 1. -/
def Equidistributed (G : Gen σ) (e : σ) (T : ℕ) : Prop :=
  0 < T ∧ ∃ c : ℕ, c * (G.max - G.min + 1) ≤ T + 1 ∧ ∀ v, ((Finset.range T).filter fun k => nth G.call e k = v).card ≤ c

/-- The first `T` samples from the state `e` on are numbers, and for every `t` the fraction of those that are at most `t` is `F t`, up to
`δ`. -/
structure FollowsUpTo (sample : σ → XR × σ) (e : σ) (T : ℕ) (F : ℝ → ℝ) (δ : ℝ) : Prop where
  number : ∀ k, k < T → ∃ r : ℝ, nth sample e k = fin r
  law : ∀ t : ℝ, |(((Finset.range T).filter fun k => nth sample e k ≤ fin t).card : ℝ) / T - F t| ≤ δ

/-- The C library functions beyond those of `DoubleWithin`, with relative errors of at most `d`: `pow` where it does not overflow, `sin`, `cos`;
`log(1)` and powers of 0 are exact. -/
structure FunctionsWithin (M : Machine) (d : ℝ) : Prop where
  pow : ∀ x y : ℝ, 0 < x → x ^ y ≤ 2 ^ (1000 : ℕ) → Close d (M.pow (fin x) (fin y)) (x ^ y)
  pow_zero : ∀ y : ℝ, 0 < y → M.pow (fin 0) (fin y) = fin 0
  ln_one : M.ln (fin 1) = fin 0
  sin : ∀ x : ℝ, Close d (M.sin (fin x)) (Real.sin x)
  cos : ∀ x : ℝ, Close d (M.cos (fin x)) (Real.cos x)

/-! ### Distribution functions -/

noncomputable section

/-- The exponential distribution with mean `mu`. -/
def exponentialLaw (mu t : ℝ) : ℝ := if t ≤ 0 then 0 else 1 - Real.exp (-t / mu)

/-- The two-sided exponential distribution. -/
def twosidedLaw (mu t : ℝ) : ℝ := if t ≤ 0 then Real.exp (t / mu) / 2 else 1 - Real.exp (-t / mu) / 2

/-- The logistic distribution. -/
def logisticLaw (theta eta t : ℝ) : ℝ := 1 / (1 + Real.exp (-(t - eta) / theta))

/-- The extreme value distribution. -/
def extremeValueLaw (theta eta t : ℝ) : ℝ := 1 - Real.exp (-Real.exp ((t - eta) / theta))

/-- The Rayleigh distribution. -/
def rayleighLaw (nu t : ℝ) : ℝ := if t ≤ 0 then 0 else 1 - Real.exp (-t ^ 2 / (2 * nu ^ 2))

/-- The normal distribution. -/
def normalLaw (mu sigma t : ℝ) : ℝ := stdNormal ((t - mu) / sigma)

/-- The log-normal distribution. -/
def lognormalLaw (mu sigma t : ℝ) : ℝ := if t ≤ 0 then 0 else stdNormal ((Real.log t - mu) / sigma)

/-- The uniform distribution from `a` to `b`. -/
def uniformLaw (a b t : ℝ) : ℝ := if t ≤ a then 0 else if b ≤ t then 1 else (t - a) / (b - a)

/-- The tent distribution from `m - d` to `m + d`. -/
def tentLaw (m d t : ℝ) : ℝ :=
  if t ≤ m - d then 0
  else if t ≤ m then (1 + (t - m) / d) ^ 2 / 2
  else if t ≤ m + d then 1 - (1 - (t - m) / d) ^ 2 / 2
  else 1

/-- The Cauchy distribution. -/
def cauchyLaw (theta eta t : ℝ) : ℝ := 1 / 2 + Real.arctan ((t - eta) / theta) / Real.pi

/-- The Pareto distribution. -/
def paretoLaw (gamma theta t : ℝ) : ℝ := if t ≤ 0 then 0 else 1 - (1 + t / theta) ^ (-gamma)

/-- The power-law distribution. -/
def powerlawLaw (gamma theta t : ℝ) : ℝ := if t ≤ theta then 0 else 1 - (t / theta) ^ (-gamma)

/-- The Weibull distribution. -/
def weibullLaw (theta beta t : ℝ) : ℝ := if t ≤ 0 then 0 else 1 - Real.exp (-(t / theta) ^ beta)

end

end Trng.Spec
