import Verif.Model.XReal
import Mathlib.Data.Set.Basic
import Mathlib.Order.Interval.Set.Defs

/-! Model of the continuous distributions with closed forms (trng/*_dist.hpp), on exact reals with the IEEE special values
(Model/XReal.lean).  A distribution object with fixed parameters is a `ContDist`; `draw` is `operator()` as a function of
the uniform deviate it takes from the engine, and `deviate` the interval that deviate comes from (trng/uniformxx.hpp:
`uniformcc`, `uniformco`, `uniformoc`, `uniformoo`; Model/Uniform.lean models those functions).  `errno` is not
modelled; the members that set parameters or read and write them are not part of these definitions. -/
namespace Trng

/-- The observable functions of a distribution object. -/
structure ContDist where
  pdf : XR → XR
  cdf : XR → XR
  icdf : XR → XR
  draw : XR → XR
  deviate : Set ℝ
  min : XR
  max : XR

noncomputable section
open Classical XR

/-- exponential_dist.hpp:122-161. -/
def exponentialDist (mu : XR) : ContDist where
  draw u := -mu * ln u
  deviate := Set.Ioc 0 1
  min := 0
  max := pinf
  pdf x := if x < 0 then 0 else XR.exp (-x / mu) / mu
  cdf x := if x ≤ 0 then 0 else 1 - XR.exp (-x / mu)
  icdf x :=
    if x < 0 ∨ 1 < x then nan
    else if eq x 1 then pinf
    else -mu * ln (1 - x)

/-- twosided_exponential_dist.hpp:156-169 `icdf`. -/
def twosidedIcdf (mu x : XR) : XR :=
  if x < 0 ∨ 1 < x then nan
  else if eq x 1 then pinf
  else if eq x 0 then ninf
  else if x < fin (1 / 2) then mu * ln (2 * x) else -mu * ln (2 - 2 * x)

/-- twosided_exponential_dist.hpp:123-169. -/
def twosidedExponentialDist (mu : XR) : ContDist where
  draw u := twosidedIcdf mu u
  deviate := Set.Ioo 0 1
  min := -pinf
  max := pinf
  pdf x := XR.exp (-XR.abs x / mu) / (2 * mu)
  cdf x := if x ≤ 0 then XR.exp (x / mu) / 2 else 1 - XR.exp (-x / mu) / 2
  icdf := twosidedIcdf mu

/-- uniform01_dist.hpp:103-146. -/
def uniform01Dist : ContDist where
  draw u := u
  deviate := Set.Ico 0 1
  min := 0
  max := 1
  pdf x := if x < 0 ∨ 1 ≤ x then 0 else 1
  cdf x := if x < 0 then 0 else if 1 ≤ x then 1 else x
  icdf x := if x < 0 ∨ 1 < x then nan else x

/-- uniform_dist.hpp:133-184, with the parameters `a`, `b` and `d = b - a` as the constructor (76-78) and the setters
(62-73) leave them. -/
def uniformDist (a b : XR) : ContDist where
  draw u := (b - a) * u + a
  deviate := Set.Ico 0 1
  min := a
  max := b
  pdf x := if x < a ∨ b ≤ x then 0 else 1 / (b - a)
  cdf x := if x < a then 0 else if b ≤ x then 1 else (x - a) / (b - a)
  icdf x := if x < 0 ∨ 1 < x then nan else x * (b - a) + a

/-- tent_dist.hpp:116-119 `icdf_`. -/
def tentIcdf (m d x : XR) : XR :=
  if x < 1 / 2 then (-1 + sqrt (2 * x)) * d + m else (1 - sqrt (2 - 2 * x)) * d + m

/-- tent_dist.hpp:132-187. -/
def tentDist (m d : XR) : ContDist where
  draw u := tentIcdf m d u
  deviate := Set.Icc 0 1
  min := m - d
  max := m + d
  pdf x :=
    let x := x - m
    if x ≤ -d ∨ d ≤ x then 0
    else if x < 0 then (1 + x / d) / d else (1 - x / d) / d
  cdf x :=
    let x := x - m
    if x ≤ -d then 0
    else if x ≤ 0 then (x + d) * (x + d) / (2 * d * d)
    else if x < d then 1 - (x - d) * (x - d) / (2 * d * d)
    else 1
  icdf x := if x < 0 ∨ 1 < x then nan else tentIcdf m d x

/-- pareto_dist.hpp:128-179. -/
def paretoDist (gamma theta : XR) : ContDist where
  draw u := (pow u (-1 / gamma) - 1) * theta
  deviate := Set.Ioo 0 1
  min := 0
  max := pinf
  pdf x := if x < 0 then 0 else gamma / theta * pow (1 + x / theta) (-gamma - 1)
  cdf x := if x ≤ 0 then 0 else 1 - pow (1 + x / theta) (-gamma)
  icdf x :=
    if x ≤ 0 ∨ 1 ≤ x then nan
    else if eq x 0 then 0
    else if eq x 1 then pinf
    else (pow (1 - x) (-1 / gamma) - 1) * theta

/-- powerlaw_dist.hpp:128-181. -/
def powerlawDist (gamma theta : XR) : ContDist where
  draw u := theta * pow u (-1 / gamma)
  deviate := Set.Ioc 0 1
  min := theta
  max := pinf
  pdf x := if x < theta then 0 else gamma / theta * pow (x / theta) (-gamma - 1)
  cdf x := if x ≤ 0 then 0 else 1 - pow (x / theta) (-gamma)
  icdf x :=
    if x ≤ 0 ∨ 1 ≤ x then nan
    else if eq x 0 then theta
    else if eq x 1 then pinf
    else theta * pow (1 - x) (-1 / gamma)

/-- weibull_dist.hpp:127-188. -/
def weibullDist (theta beta : XR) : ContDist where
  draw u := theta * pow (-ln u) (1 / beta)
  deviate := Set.Ioc 0 1
  min := 0
  max := pinf
  pdf x :=
    if x < 0 then 0
    else
      let x := x / theta
      if 0 < x then
        let t1 := pow x beta
        let t2 := t1 / x
        beta / theta * t2 * XR.exp (-t1)
      else if eq beta 1 then 1 / theta
      else if 1 < beta then 0
      else nan
  cdf x :=
    let x := x / theta
    if x ≤ 0 then 0 else -XR.expm1 (-pow x beta)
  icdf x := if x < 0 ∨ 1 ≤ x then nan else theta * pow (-ln1p (-x)) (1 / beta)

/-- logistic_dist.hpp:117-119 `icdf_`. -/
def logisticIcdf (theta eta x : XR) : XR := eta - ln ((1 - x) / x) * theta

/-- logistic_dist.hpp:132-184. -/
def logisticDist (theta eta : XR) : ContDist where
  draw u := logisticIcdf theta eta u
  deviate := Set.Ioo 0 1
  min := -pinf
  max := pinf
  pdf x :=
    let t1 := XR.exp (-XR.abs ((x - eta) / theta))
    let t2 := 1 + t1
    t1 / (theta * t2 * t2)
  cdf x :=
    let t1 := XR.exp (-XR.abs ((x - eta) / theta))
    if eta ≤ x then 1 / (1 + t1) else t1 / (1 + t1)
  icdf x :=
    if x < 0 ∨ 1 < x then nan
    else if eq x 0 then -pinf
    else if eq x 1 then pinf
    else logisticIcdf theta eta x

/-- extreme_value_dist.hpp:126-179. -/
def extremeValueDist (theta eta : XR) : ContDist where
  draw u := eta + theta * ln (-ln u)
  deviate := Set.Ioo 0 1
  min := -pinf
  max := pinf
  pdf x :=
    let x := (x - eta) / theta
    XR.exp (x - XR.exp x) / theta
  cdf x :=
    let x := (x - eta) / theta
    1 - XR.exp (-XR.exp x)
  icdf x :=
    if x ≤ 0 ∨ 1 ≤ x then nan
    else if eq x 0 then -pinf
    else if eq x 1 then pinf
    else eta + theta * ln (-ln (1 - x))

/-- cauchy_dist.hpp:118-121 `icdf_`; the constant π is exact. -/
def cauchyIcdf (theta eta x : XR) : XR :=
  let t := x * fin Real.pi
  eta - theta * cos t / sin t

/-- cauchy_dist.hpp:134-188; the constant 1/π is exact. -/
def cauchyDist (theta eta : XR) : ContDist where
  draw u := cauchyIcdf theta eta u
  deviate := Set.Ioo 0 1
  min := -pinf
  max := pinf
  pdf x :=
    let x := (x - eta) / theta
    fin (1 / Real.pi) / (1 + x * x) / theta
  cdf x :=
    let x := (x - eta) / theta
    fin (1 / Real.pi) * atan x + 1 / 2
  icdf x :=
    if x ≤ 0 ∨ 1 ≤ x then nan
    else if eq x 0 then -pinf
    else if eq x 1 then pinf
    else cauchyIcdf theta eta x

/-- rayleigh_dist.hpp:160-168 `icdf`. -/
def rayleighIcdf (nu x : XR) : XR := if x < 0 ∨ 1 < x then nan else nu * sqrt (-2 * ln (1 - x))

/-- rayleigh_dist.hpp:122-168. -/
def rayleighDist (nu : XR) : ContDist where
  draw u := rayleighIcdf nu u
  deviate := Set.Ioo 0 1
  min := 0
  max := pinf
  pdf x :=
    if x ≤ 0 then 0
    else
      let t := x / (nu * nu)
      t * XR.exp (-t * x / 2)
  cdf x := if x ≤ 0 then 0 else 1 - XR.exp (-x * x / (2 * nu * nu))
  icdf := rayleighIcdf nu

end
end Trng
