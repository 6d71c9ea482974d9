import Verif.Model.XReal
import Verif.Model.Discrete
import Mathlib.MeasureTheory.Integral.IntervalIntegral.Basic

/-! Model of hypergeometric_dist, binomial_dist, poisson_dist, zero_truncated_poisson_dist, negative_binomial_dist and
geometric_dist (the headers of the same names in trng/).

Numbers are exact reals with the IEEE special values (Model/XReal.lean).  `int` arithmetic is on ℤ; overflow, which is
undefined behaviour, is `none` where a loop counts upwards or a floating-point number is converted.  The incomplete
Gamma and Beta functions (trng/special_functions.hpp:205-527, 595-672) are the mathematical functions that file
computes approximately. -/
namespace Trng
open Trng.Discrete

namespace XR
noncomputable section
open Classical

/-- `static_cast<int>(x)`: rounds towards zero; undefined behaviour for a result that is not an `int`. -/
def toInt : XR → Option ℤ
  | fin x => let n : ℤ := if 0 ≤ x then ⌊x⌋ else ⌈x⌉
             if -2 ^ 31 ≤ n ∧ n < 2 ^ 31 then some n else none
  | _ => none

/-- `static_cast<double>(n)` of an `int`. -/
def ofInt (n : ℤ) : XR := fin (n : ℝ)

/-- special_functions.hpp:461-493 `GammaQ(a, x)`: `∫_x^∞ t^(a-1) e^(-t) dt / Γ(a)`, with the checks of lines 439-440.
The numerical method is not modelled. -/
def GammaQ : XR → XR → XR
  | fin a, fin x => if x < 0 ∨ a ≤ 0 then nan else fin ((∫ t in Set.Ioi x, Real.exp (-t) * t ^ (a - 1)) / Real.Gamma a)
  | _, _ => nan

/-- special_functions.hpp:644-672 `Beta_I(x, p, q)`: `∫_0^x t^(p-1) (1-t)^(q-1) dt · Γ(p+q) / (Γ(p) Γ(q))`, with the
checks of lines 603-608.  The numerical method is not modelled. -/
def BetaI : XR → XR → XR → XR
  | fin x, fin p, fin q =>
    if p ≤ 0 ∨ q ≤ 0 ∨ x < 0 ∨ 1 < x then nan
    else fin ((∫ t in (0 : ℝ)..x, t ^ (p - 1) * (1 - t) ^ (q - 1)) * (Real.Gamma (p + q) / (Real.Gamma p * Real.Gamma q)))
  | _, _, _ => nan

/-- special_functions.hpp:176-179 `ln_binomial`. -/
def lnBinomial (n m : XR) : XR := lnGamma (n + 1) - lnGamma (m + 1) - lnGamma (n - m + 1)

end
end XR

noncomputable section
open Classical XR

/-- `for (i = 1; …) P_[i] += P_[i-1];` (hypergeometric_dist.hpp:72-73, binomial_dist.hpp:73-74), from the entry before on. -/
def cumulateFrom (a : XR) : List XR → List XR
  | [] => []
  | p :: l => (p + a) :: cumulateFrom (p + a) l

/-- The same, from the first entry on. -/
def cumulate : List XR → List XR
  | [] => []
  | p :: l => p :: cumulateFrom p l

/-- `for (i = 0; …) P_[i] /= P_.back();` (hypergeometric_dist.hpp:74-75, binomial_dist.hpp:76-77); the last entry, by
which all are divided, is replaced last. -/
def normalize (l : List XR) : List XR :=
  match l.getLast? with
  | none => l
  | some b => l.map (· / b)

/-! ### hypergeometric_dist -/

/-- hypergeometric_dist.hpp:57-61, the members of `param_type`. -/
structure Hypergeometric where
  n : ℤ
  m : ℤ
  d : ℤ
  xmin : ℤ
  xmax : ℤ
  P : List XR

namespace Hypergeometric

/-- hypergeometric_dist.hpp:64 `x_min`. -/
def lower (n m d : ℤ) : ℤ := max 0 (d - n + m)

/-- hypergeometric_dist.hpp:65 `x_max`. -/
def upper (m d : ℤ) : ℤ := min d m

/-- hypergeometric_dist.hpp:68-70, the entry for `x`. -/
def entry (n m : ℤ) (x : ℤ) : XR :=
  XR.exp (lnBinomial (ofInt m) (ofInt x) + lnBinomial (ofInt (n - m)) (ofInt (m - x)))

/-- hypergeometric_dist.hpp:63-76, 95 the constructor with `calc_probabilities`. -/
def construct (n m d : ℤ) : Hypergeometric :=
  { n := n, m := m, d := d, xmin := lower n m d, xmax := upper m d
    P := normalize (cumulate ((List.range (upper m d + 1 - lower n m d).toNat).map fun i : ℕ =>
      entry n m (lower n m d + (i : ℤ)))) }

/-- hypergeometric_dist.hpp:109-113 `operator()`; `u` is the deviate. -/
def draw (H : Hypergeometric) (u : XR) : Option ℤ := (search u H.P).map fun i : ℕ => H.xmin + (i : ℤ)

/-- hypergeometric_dist.hpp:131-138 `pdf`. -/
def pdf (H : Hypergeometric) (x : ℤ) : Option XR :=
  if x < H.xmin ∨ x > H.xmax then some 0
  else if x - H.xmin = 0 then H.P[0]?
  else H.P[(x - H.xmin).toNat]?.bind fun a => H.P[(x - H.xmin - 1).toNat]?.map fun b => a - b

/-- hypergeometric_dist.hpp:140-146 `cdf`. -/
def cdf (H : Hypergeometric) (x : ℤ) : Option XR :=
  if x < H.xmin then some 0 else if x > H.xmax then some 1 else H.P[(x - H.xmin).toNat]?

end Hypergeometric

/-! ### binomial_dist -/

/-- binomial_dist.hpp:55-57, the members of `param_type`. -/
structure Binomial where
  p : XR
  n : ℕ
  P : List XR

namespace Binomial

/-- binomial_dist.hpp:65-71, the loop of `calc_probabilities` from `i` on, with `k` entries to go. -/
def entries (lnp lnq : XR) (n : ℕ) : (k i : ℕ) → (lnBinom : XR) → List XR
  | 0, _, _ => []
  | k + 1, i, b =>
    XR.exp (b + ofInt i * lnp + ofInt ((n : ℤ) - i) * lnq) ::
      entries lnp lnq n k (i + 1) (b + ln (ofInt ((n : ℤ) - i)) - ln (ofInt ((i : ℤ) + 1)))

/-- binomial_dist.hpp:59-78, 92 the constructor with `calc_probabilities`; `n` is not negative. -/
def construct (p : XR) (n : ℕ) : Binomial :=
  { p := p, n := n, P := normalize (cumulate (entries (ln p) (ln (1 - p)) n (n + 1) 0 0)) }

/-- binomial_dist.hpp:106-110 `operator()`; `u` is the deviate. -/
def draw (B : Binomial) (u : XR) : Option ℤ := (search u B.P).map fun i : ℕ => (i : ℤ)

/-- binomial_dist.hpp:126-132 `pdf`. -/
def pdf (B : Binomial) (x : ℤ) : Option XR :=
  if x < 0 ∨ x > B.n then some 0
  else if x = 0 then B.P[0]?
  else B.P[x.toNat]?.bind fun a => B.P[(x - 1).toNat]?.map fun b => a - b

/-- binomial_dist.hpp:134-140 `cdf`. -/
def cdf (B : Binomial) (x : ℤ) : Option XR := if x < 0 then some 0 else if x ≤ B.n then B.P[x.toNat]? else some 1

end Binomial

/-! ### The samplers with a table and a loop for the tail -/

/-- poisson_dist.hpp:98-101 (zero_truncated_poisson_dist.hpp:99-102, negative_binomial_dist.hpp:127-130), the loop for the
tail: `none` if `x` leaves the range of `int`. -/
def tailLoop (pdf : ℤ → XR) : (fuel : ℕ) → (p : XR) → (x : ℤ) → Option ℤ
  | 0, _, _ => none
  | fuel + 1, p, x => if 0 < p then tailLoop pdf fuel (p - pdf (x + 1)) (x + 1) else some x

/-- poisson_dist.hpp:93-103 (zero_truncated_poisson_dist.hpp:94-104, negative_binomial_dist.hpp:122-132) `operator()`; `u`
is the deviate. -/
def tailDraw (cdf pdf : ℤ → XR) (P : List XR) (u : XR) : Option ℤ :=
  (search u P).bind fun x =>
    if x + 1 = P.length then tailLoop pdf (2 ^ 31 - x) (u - cdf x) x else some (x : ℤ)

namespace Poisson

/-- poisson_dist.hpp:122 `cdf`. -/
def cdf (mu : XR) (x : ℤ) : XR := if x < 0 then 0 else GammaQ (ofInt x + 1) mu

/-- poisson_dist.hpp:118-120 `pdf`. -/
def pdf (mu : XR) (x : ℤ) : XR :=
  if x < 0 then 0 else XR.exp (-mu - lnGamma (ofInt x + 1) + ofInt x * ln mu)

/-- poisson_dist.hpp:62-66, the loop of `calc_probabilities`; `none` if `x` leaves the range of `int`. -/
def tableLoop (mu : XR) : (fuel : ℕ) → (x : ℤ) → Option (List XR)
  | 0, _ => none
  | fuel + 1, x =>
    if x < 7 ∨ ofInt x < 2 * mu then (tableLoop mu fuel (x + 1)).map fun l => GammaQ (ofInt x + 1) mu :: l
    else some [1]

/-- poisson_dist.hpp:60-68 `calc_probabilities`. -/
def table (mu : XR) : Option (List XR) := tableLoop mu (2 ^ 31) 0

/-- poisson_dist.hpp:77, 91-104 construction and `operator()`. -/
def draw (mu u : XR) : Option ℤ := (table mu).bind fun P => tailDraw (cdf mu) (pdf mu) P u

end Poisson

namespace ZTPoisson

/-- zero_truncated_poisson_dist.hpp:125-129 `cdf`. -/
def cdf (mu : XR) (x : ℤ) : XR := if x ≤ 0 then 0 else (XR.exp mu * GammaQ (ofInt x + 1) mu - 1) / expm1 mu

/-- zero_truncated_poisson_dist.hpp:119-123 `pdf`. -/
def pdf (mu : XR) (x : ℤ) : XR :=
  if x ≤ 0 then 0 else XR.exp (-lnGamma (ofInt x + 1) + ofInt x * ln mu) / expm1 mu

/-- zero_truncated_poisson_dist.hpp:63-68, the loop of `calc_probabilities`; `none` if `x` leaves the range of `int`. -/
def tableLoop (mu : XR) : (fuel : ℕ) → (x : ℤ) → Option (List XR)
  | 0, _ => none
  | fuel + 1, x =>
    if x < 7 ∨ ofInt x < 2 * mu then
      (tableLoop mu fuel (x + 1)).map fun l => (XR.exp mu * GammaQ (ofInt x + 1) mu - 1) / expm1 mu :: l
    else some [1]

/-- zero_truncated_poisson_dist.hpp:59-69 `calc_probabilities`. -/
def table (mu : XR) : Option (List XR) := (tableLoop mu (2 ^ 31 - 1) 1).map fun l => 0 :: l

/-- zero_truncated_poisson_dist.hpp:78, 92-105 construction and `operator()`. -/
def draw (mu u : XR) : Option ℤ := (table mu).bind fun P => tailDraw (cdf mu) (pdf mu) P u

end ZTPoisson

namespace NegBinomial

/-- negative_binomial_dist.hpp:76-80, 151 `cdf`. -/
def cdf (p r : XR) (x : ℤ) : XR := if x < 0 then 0 else BetaI p r (ofInt (x + 1))

/-- negative_binomial_dist.hpp:64-73, 149 `pdf`; in exact arithmetic of finite values the order of the summands, which
the code sorts by magnitude, does not matter, and the model adds them as listed. -/
def pdf (p r : XR) (x : ℤ) : XR :=
  if x < 0 then 0
  else XR.exp (lnGamma (r + ofInt x) + -lnGamma r + -lnGamma (ofInt (x + 1)) + ln p * r + ln1p (-p) * ofInt x)

/-- negative_binomial_dist.hpp:86-91, the loop of `calc_probabilities` with the last entry `q`; `none` if `x` leaves the
range of `int`. -/
def tableLoop (p r : XR) : (fuel : ℕ) → (x : ℤ) → (q : XR) → Option (List XR)
  | 0, _, _ => none
  | fuel + 1, x, q =>
    if q < 1 - 1 / 4096 then (tableLoop p r fuel (x + 1) (cdf p r x)).map fun l => cdf p r x :: l
    else some [1]

/-- negative_binomial_dist.hpp:82-92 `calc_probabilities`. -/
def table (p r : XR) : Option (List XR) := tableLoop p r (2 ^ 31) 0 0

/-- negative_binomial_dist.hpp:106, 120-133 construction and `operator()`. -/
def draw (p r u : XR) : Option ℤ := (table p r).bind fun P => tailDraw (cdf p r) (pdf p r) P u

end NegBinomial

/-! ### geometric_dist -/

/-- geometric_dist.hpp:56, the members of `param_type`. -/
structure Geometric where
  p : XR
  q : XR
  oneOverLnQ : XR

namespace Geometric

/-- geometric_dist.hpp:73-74 the constructor (the setter of lines 67-71 is the same). -/
def construct (p : XR) : Geometric := { p := p, q := 1 - p, oneOverLnQ := 1 / ln (1 - p) }

/-- geometric_dist.hpp:91-94 `operator()`; `u` is the deviate. -/
def draw (G : Geometric) (u : XR) : Option ℤ := (ln u * G.oneOverLnQ).toInt

/-- geometric_dist.hpp:115-117 `pdf`. -/
def pdf (G : Geometric) (x : ℤ) : XR := if x < 0 then 0 else G.p * pow G.q (ofInt x)

/-- geometric_dist.hpp:120-122 `cdf`. -/
def cdf (G : Geometric) (x : ℤ) : XR := if x < 0 then 0 else 1 - pow G.q (ofInt (x + 1))

end Geometric
end
end Trng
