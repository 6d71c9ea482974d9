import Verif.Model.DiscreteLaws
import Verif.Model.GammaAsympt

/-! Model of poisson_dist, zero_truncated_poisson_dist and negative_binomial_dist with the library's own numerical methods for the
incomplete Gamma and Beta functions, where Model/DiscreteLaws.lean has the exact functions.  Apart from these functions the
definitions are the same. -/
namespace Trng
noncomputable section
open Classical XR Special Discrete

/-- special_functions.hpp:461-493 `GammaQ(a, x)` of `double` arguments. -/
def libGammaQ : XR → XR → XR := gammaQ .double (gammaQAsympt .double) true

/-- special_functions.hpp:644-672 `Beta_I(x, p, q)` of `double` arguments; `none` is undefined behaviour. -/
def libBetaI (x p q : XR) : Option XR := betaI .double x p q (Special.beta .double p q)

namespace PoissonBy
variable (GQ : XR → XR → XR)

/-- poisson_dist.hpp:122 `cdf`. -/
def cdf (mu : XR) (x : ℤ) : XR := if x < 0 then 0 else GQ (ofInt x + 1) mu

/-- poisson_dist.hpp:62-66, the loop of `calc_probabilities`; `none` if `x` leaves the range of `int`. -/
def tableLoop (mu : XR) : (fuel : ℕ) → (x : ℤ) → Option (List XR)
  | 0, _ => none
  | fuel + 1, x =>
    if x < 7 ∨ ofInt x < 2 * mu then (tableLoop mu fuel (x + 1)).map fun l => GQ (ofInt x + 1) mu :: l
    else some [1]

/-- poisson_dist.hpp:60-68 `calc_probabilities`. -/
def table (mu : XR) : Option (List XR) := tableLoop GQ mu (2 ^ 31) 0

/-- poisson_dist.hpp:77, 91-104 construction and `operator()`. -/
def draw (mu u : XR) : Option ℤ := (table GQ mu).bind fun P => tailDraw (cdf GQ mu) (Poisson.pdf mu) P u

end PoissonBy

namespace ZTPoissonBy
variable (GQ : XR → XR → XR)

/-- zero_truncated_poisson_dist.hpp:125-129 `cdf`. -/
def cdf (mu : XR) (x : ℤ) : XR := if x ≤ 0 then 0 else (XR.exp mu * GQ (ofInt x + 1) mu - 1) / expm1 mu

/-- zero_truncated_poisson_dist.hpp:63-68, the loop of `calc_probabilities`; `none` if `x` leaves the range of `int`. -/
def tableLoop (mu : XR) : (fuel : ℕ) → (x : ℤ) → Option (List XR)
  | 0, _ => none
  | fuel + 1, x =>
    if x < 7 ∨ ofInt x < 2 * mu then
      (tableLoop mu fuel (x + 1)).map fun l => (XR.exp mu * GQ (ofInt x + 1) mu - 1) / expm1 mu :: l
    else some [1]

/-- zero_truncated_poisson_dist.hpp:59-69 `calc_probabilities`. -/
def table (mu : XR) : Option (List XR) := (tableLoop GQ mu (2 ^ 31 - 1) 1).map fun l => 0 :: l

/-- zero_truncated_poisson_dist.hpp:78, 92-105 construction and `operator()`. -/
def draw (mu u : XR) : Option ℤ := (table GQ mu).bind fun P => tailDraw (cdf GQ mu) (ZTPoisson.pdf mu) P u

end ZTPoissonBy

namespace NegBinomialBy
variable (BI : XR → XR → XR → Option XR)

/-- negative_binomial_dist.hpp:76-80, 151 `cdf`. -/
def cdf (p r : XR) (x : ℤ) : Option XR := if x < 0 then some 0 else BI p r (ofInt (x + 1))

/-- negative_binomial_dist.hpp:86-91, the loop of `calc_probabilities` with the last entry `q`; `none` if `x` leaves the
range of `int`. -/
def tableLoop (p r : XR) : (fuel : ℕ) → (x : ℤ) → (q : XR) → Option (List XR)
  | 0, _, _ => none
  | fuel + 1, x, q =>
    if q < 1 - 1 / 4096 then (cdf BI p r x).bind fun v => (tableLoop p r fuel (x + 1) v).map fun l => v :: l
    else some [1]

/-- negative_binomial_dist.hpp:82-92 `calc_probabilities`. -/
def table (p r : XR) : Option (List XR) := tableLoop BI p r (2 ^ 31) 0 0

/-- negative_binomial_dist.hpp:106, 120-133 construction and `operator()`; `cdf` is called only for the last entry. -/
def draw (p r u : XR) : Option ℤ :=
  (table BI p r).bind fun P =>
    (search u P).bind fun x =>
      if x + 1 = P.length then (cdf BI p r x).bind fun v => tailLoop (NegBinomial.pdf p r) (2 ^ 31 - x) (u - v) x else some (x : ℤ)

end NegBinomialBy
end
end Trng
