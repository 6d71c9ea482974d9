import Verif.Model.Continuous
import Mathlib.MeasureTheory.Integral.IntervalIntegral.Basic

/-! Model of the distributions that rest on the normal distribution function, and of that function and its inverse
(trng/special_functions.hpp:747-985), on exact reals with the IEEE special values. -/
namespace Trng

noncomputable section
open Classical XR

/-- The error function. -/
def erfR (x : ℝ) : ℝ := 2 / Real.sqrt Real.pi * ∫ t in (0 : ℝ)..x, Real.exp (-t ^ 2)

/-- special_functions.hpp:52 `erf`, i.e. `std::erf`. -/
def XR.erf : XR → XR
  | nan => nan
  | ninf => fin (-1)
  | fin x => fin (erfR x)
  | pinf => fin 1
/-- special_functions.hpp:53 `erfc`, i.e. `std::erfc`. -/
def XR.erfc : XR → XR
  | nan => nan
  | ninf => fin 2
  | fin x => fin (1 - erfR x)
  | pinf => fin 0

/-- The constants of constants.hpp:70-76, with their exact values. -/
def oneOverSqrt2 : XR := fin (1 / Real.sqrt 2)
def sqrt2pi : XR := fin (Real.sqrt (2 * Real.pi))
def oneOverSqrt2pi : XR := fin (1 / Real.sqrt (2 * Real.pi))
def sqrt2OverPi : XR := fin (Real.sqrt (2 / Real.pi))
def sqrtPiOver2 : XR := fin (Real.sqrt Real.pi / 2)

/-- special_functions.hpp:760-768 `Phi`. -/
def Phi (x : XR) : XR :=
  if x * oneOverSqrt2 < fin (-0.6744897501960817) * oneOverSqrt2 then fin 0.5 * erfc (-(x * oneOverSqrt2))
  else if fin 0.6744897501960817 * oneOverSqrt2 < x * oneOverSqrt2 then 1 - fin 0.5 * erfc (x * oneOverSqrt2)
  else fin 0.5 + fin 0.5 * erf (x * oneOverSqrt2)

/-- special_functions.hpp:842-847, 869-874: the quotient of polynomials of the outer regions. -/
def acklamTail (q : XR) : XR :=
  (((((fin (-7.784894002430293e-03) * q + fin (-3.223964580411365e-01)) * q + fin (-2.400758277161838e+00)) * q
    + fin (-2.549732539343734e+00)) * q + fin 4.374664141464968e+00) * q + fin 2.938163982698783e+00) /
  ((((fin 7.784695709041462e-03 * q + fin 3.224671290700398e-01) * q + fin 2.445134137142996e+00) * q
    + fin 3.754408661907416e+00) * q + 1)

/-- special_functions.hpp:849-864: the central region, with `q = x - 1/2`. -/
def acklamCentre (q : XR) : XR :=
  (((((fin (-3.969683028665376e+01) * (q * q) + fin 2.209460984245205e+02) * (q * q) + fin (-2.759285104469687e+02)) * (q * q)
    + fin 1.383577518672690e+02) * (q * q) + fin (-3.066479806614716e+01)) * (q * q) + fin 2.506628277459239e+00) * q /
  (((((fin (-5.447609879822406e+01) * (q * q) + fin 1.615858368580409e+02) * (q * q) + fin (-1.556989798598866e+02)) * (q * q)
    + fin 6.680131188771972e+01) * (q * q) + fin (-1.328068155288572e+01)) * (q * q) + 1)

/-- special_functions.hpp:825-876 `inv_Phi_approx`. -/
def invPhiApprox (x : XR) : XR :=
  if x < 0 ∨ 1 < x then nan
  else if eq x 0 then -pinf
  else if eq x 1 then pinf
  else if x < fin 0.02425 then acklamTail (sqrt (-2 * ln x))
  else if x < fin (1 - 0.02425) then acklamCentre (x - fin 0.5)
  else -acklamTail (sqrt (-2 * ln1p (-x)))

/-- `std::isfinite`. -/
def XR.isFinite : XR → Prop
  | fin _ => True
  | _ => False

/-- special_functions.hpp:884-889: one Halley step of `inv_Phi`, from the guess `y`. -/
def halleyPhi (x y : XR) : XR :=
  let e := Phi y - x
  let u := e * sqrt2pi * XR.exp (y * y * fin 0.5)
  y - u / (1 + y * u * fin 0.5)

/-- special_functions.hpp:916-921: one Halley step of `inv_erf`. -/
def halleyErf (x y : XR) : XR :=
  let e := erf y - x
  let u := e * sqrtPiOver2 * XR.exp (y * y)
  y - u / (1 + y * u)

/-- special_functions.hpp:953-958: one Halley step of `inv_erfc`. -/
def halleyErfc (x y : XR) : XR :=
  let e := erfc y - x
  let u := -e * sqrtPiOver2 * XR.exp (y * y)
  y - u / (1 + y * u)

/-- special_functions.hpp:885-889 and 904-908: refine a finite guess once, and again if the number type is larger than ten
bytes (`wide`). -/
def refine (wide : Bool) (step : XR → XR) (y : XR) : XR :=
  let y := if isFinite y then step y else y
  if wide = true ∧ isFinite y then step y else y

/-- special_functions.hpp:878-911 `inv_Phi`. -/
def invPhi (wide : Bool) (x : XR) : XR := refine wide (halleyPhi x) (invPhiApprox x)

/-- special_functions.hpp:913-943 `inv_erf`. -/
def invErf (wide : Bool) (x : XR) : XR := refine wide (halleyErf x) (invPhiApprox ((x + 1) / 2) * oneOverSqrt2)

/-- special_functions.hpp:945-981 `inv_erfc`. -/
def invErfc (wide : Bool) (x : XR) : XR :=
  let z := if 1 < x then -(x - 1) + 1 else x
  let y := refine wide (halleyErfc z) (-invPhiApprox (z / 2) * oneOverSqrt2)
  if 1 < x then -y else y

/-! The distributions.  `inv` is the inverse normal distribution function; the code has `invPhi wide`. -/

/-- normal_dist.hpp:129-170. -/
def normalDist (inv : XR → XR) (mu sigma : XR) : ContDist where
  draw u := inv u * sigma + mu
  deviate := Set.Ioo 0 1
  min := -pinf
  max := pinf
  pdf x := oneOverSqrt2pi / sigma * XR.exp ((x - mu) * (x - mu) / (-2 * sigma * sigma))
  cdf x := Phi ((x - mu) / sigma)
  icdf x := inv x * sigma + mu

/-- lognormal_dist.hpp:170-184 `icdf`. -/
def lognormalIcdf (inv : XR → XR) (mu sigma x : XR) : XR :=
  if x < 0 ∨ 1 < x then nan
  else if eq x 0 then 0
  else if eq x 1 then pinf
  else XR.exp (inv x * sigma + mu)

/-- lognormal_dist.hpp:126-185. -/
def lognormalDist (inv : XR → XR) (mu sigma : XR) : ContDist where
  draw u := lognormalIcdf inv mu sigma u
  deviate := Set.Ioo 0 1
  min := 0
  max := pinf
  pdf x :=
    if x ≤ 0 then 0
    else oneOverSqrt2pi / (x * sigma) * XR.exp (-((ln x - mu) / sigma) * ((ln x - mu) / sigma) / 2)
  cdf x := if x ≤ 0 then 0 else erfc (oneOverSqrt2 * (mu - ln x) / sigma) / 2
  icdf x := lognormalIcdf inv mu sigma x

/-- truncated_normal_dist.hpp:61-71 `update_Phi`: the cached value for the lower end `a`. -/
def truncPhiA (mu sigma a : XR) : XR := if -pinf < a then Phi ((a - mu) / sigma) else 0
/-- truncated_normal_dist.hpp:61-71 `update_Phi`: the cached value for the upper end `b`. -/
def truncPhiB (mu sigma b : XR) : XR := if b < pinf then Phi ((b - mu) / sigma) else 1

/-- truncated_normal_dist.hpp:215-220 `icdf`. -/
def truncatedNormalIcdf (inv : XR → XR) (mu sigma a b x : XR) : XR :=
  inv (x * (truncPhiB mu sigma b - truncPhiA mu sigma a) + truncPhiA mu sigma a) * sigma + mu

/-- truncated_normal_dist.hpp:155-221; every setter and constructor leaves the cached values as `update_Phi` does. -/
def truncatedNormalDist (inv : XR → XR) (mu sigma a b : XR) : ContDist where
  draw u := truncatedNormalIcdf inv mu sigma a b u
  deviate := Set.Ioo 0 1
  min := a
  max := b
  pdf x := oneOverSqrt2pi / sigma * XR.exp (-((x - mu) / sigma) * ((x - mu) / sigma) / 2) /
    (truncPhiB mu sigma b - truncPhiA mu sigma a)
  cdf x := (Phi ((x - mu) / sigma) - truncPhiA mu sigma a) / (truncPhiB mu sigma b - truncPhiA mu sigma a)
  icdf x := truncatedNormalIcdf inv mu sigma a b x

/-- maxwell_dist.hpp:143-148 `pdf`. -/
def maxwellPdf (theta x : XR) : XR :=
  sqrt2OverPi * (x * x) * XR.exp (-(x * x) / (2 * (theta * theta))) / (theta * theta * theta)
/-- maxwell_dist.hpp:150-155 `cdf`. -/
def maxwellCdf (theta x : XR) : XR :=
  erf (x * oneOverSqrt2 / theta) - sqrt2OverPi * x * XR.exp (-x * x / (2 * theta * theta)) / theta

/-- maxwell_dist.hpp:169-174: the Newton iteration of `icdf`, with `n` steps left; `eps` is the machine epsilon. -/
def maxwellNewton (theta eps x : XR) : Nat → XR → XR
  | 0, y => y
  | n + 1, y =>
    let y' := y - (maxwellCdf theta y - x) / maxwellPdf theta y
    if XR.abs (y' / y - 1) < 4 * eps then y' else maxwellNewton theta eps x n y'

/-- maxwell_dist.hpp:157-176 `icdf`; `digits` and `eps` as in `numeric_limits`. -/
def maxwellIcdf (digits : Nat) (eps theta x : XR) : XR :=
  if x < 0 ∨ 1 < x then nan
  else if eq x 1 then pinf
  else if eq x 0 then 0
  else maxwellNewton theta eps x (digits + 2) (2 * theta * sqrt2OverPi)

/-- maxwell_dist.hpp:118-177. -/
def maxwellDist (digits : Nat) (eps theta : XR) : ContDist where
  draw u := maxwellIcdf digits eps theta u
  deviate := Set.Ioo 0 1
  min := 0
  max := pinf
  pdf := maxwellPdf theta
  cdf := maxwellCdf theta
  icdf := maxwellIcdf digits eps theta

end
end Trng
