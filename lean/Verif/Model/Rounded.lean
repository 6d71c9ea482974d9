import Verif.Model.Normal
import Mathlib.Data.Int.Log

/-! Model of the continuous distributions with closed forms in floating-point arithmetic: every operation is followed by a
rounding, which may overflow or underflow, and the functions of the C library are arbitrary.  Model/Continuous.lean models the
same code on exact reals; `Machine.exact` makes the definitions here equal to those there (C96_exact).

Simplifications: there is only one zero (Model/XReal.lean); the exceptions of the floating-point unit and `errno` are not
modelled; operations are not contracted and have no excess precision. -/
namespace Trng

/-- A floating-point type and the functions of the C library for it.  `rnd` rounds the exact result of an operation to a number
of the type or, on overflow, to an infinity. -/
structure Machine where
  rnd : ℝ → XR
  exp : XR → XR
  expm1 : XR → XR
  ln : XR → XR
  ln1p : XR → XR
  sqrt : XR → XR
  pow : XR → XR → XR
  sin : XR → XR
  cos : XR → XR
  atan : XR → XR
  erf : XR → XR
  erfc : XR → XR
  lnGamma : XR → XR

noncomputable section
open Classical XR

namespace Machine

/-- Exact arithmetic. -/
def exact : Machine where
  rnd := fin
  exp := XR.exp
  expm1 := XR.expm1
  ln := XR.ln
  ln1p := XR.ln1p
  sqrt := XR.sqrt
  pow := XR.pow
  sin := XR.sin
  cos := XR.cos
  atan := XR.atan
  erf := XR.erf
  erfc := XR.erfc
  lnGamma := XR.lnGamma

variable (M : Machine)

/-- Rounding of a result; infinities and NaN stay as they are. -/
def round : XR → XR
  | fin x => M.rnd x
  | y => y

/-- The arithmetic operations. -/
def add (x y : XR) : XR := M.round (x + y)
@[inherit_doc add] def sub (x y : XR) : XR := M.round (x - y)
@[inherit_doc add] def mul (x y : XR) : XR := M.round (x * y)
@[inherit_doc add] def div (x y : XR) : XR := M.round (x / y)

/-- A number of the floating-point type. -/
def Rep (x : ℝ) : Prop := M.rnd x = fin x

/-- The type whose arithmetic operations and library functions are all correctly rounded by `r`. -/
def rounded (r : ℝ → XR) : Machine :=
  let R : XR → XR := fun | fin x => r x | y => y
  { rnd := r
    exp := fun x => R (XR.exp x)
    expm1 := fun x => R (XR.expm1 x)
    ln := fun x => R (XR.ln x)
    ln1p := fun x => R (XR.ln1p x)
    sqrt := fun x => R (XR.sqrt x)
    pow := fun x y => R (XR.pow x y)
    sin := fun x => R (XR.sin x)
    cos := fun x => R (XR.cos x)
    atan := fun x => R (XR.atan x)
    erf := fun x => R (XR.erf x)
    erfc := fun x => R (XR.erfc x)
    lnGamma := fun x => R (XR.lnGamma x) }

end Machine

/-! ### IEEE 754 formats -/

/-- Nearest integer, ties to even. -/
def nearestEven (x : ℝ) : ℤ :=
  if x - ⌊x⌋ < 1 / 2 then ⌊x⌋
  else if 1 / 2 < x - ⌊x⌋ then ⌊x⌋ + 1
  else if ⌊x⌋ % 2 = 0 then ⌊x⌋ else ⌊x⌋ + 1

/-- The exponent of the last digit of numbers of the size of `x > 0`, with `p` digits and the exponent `lo` of the subnormal
numbers. -/
def ulpExp (p : ℕ) (lo : ℤ) (x : ℝ) : ℤ := max (Int.log 2 x + 1 - p) lo

/-- Rounding of a non-negative number to nearest, before overflow. -/
def nearestPos (p : ℕ) (lo : ℤ) (x : ℝ) : ℝ := nearestEven (x / 2 ^ ulpExp p lo x) * 2 ^ ulpExp p lo x

/-- Rounding to nearest, ties to even, with `p` digits, subnormal numbers `k 2^lo` and overflow from `2^hi` on. -/
def ieee (p : ℕ) (lo hi : ℤ) (x : ℝ) : XR :=
  if 0 ≤ x then (if 2 ^ hi ≤ nearestPos p lo x then pinf else fin (nearestPos p lo x))
  else (if 2 ^ hi ≤ nearestPos p lo (-x) then ninf else fin (-nearestPos p lo (-x)))

/-- `float`, `double` and `long double` (x86 extended precision) with a correctly rounded C library. -/
def floatMachine : Machine := .rounded (ieee 24 (-149) 128)
@[inherit_doc floatMachine] def doubleMachine : Machine := .rounded (ieee 53 (-1074) 1024)
@[inherit_doc floatMachine] def longDoubleMachine : Machine := .rounded (ieee 64 (-16445) 16384)

/-! ### The distributions -/

namespace Rounded
variable (M : Machine)

local infixl:65 " ⊕ " => Machine.add M
local infixl:65 " ⊖ " => Machine.sub M
local infixl:70 " ⊗ " => Machine.mul M
local infixl:70 " ⊘ " => Machine.div M

/-- exponential_dist.hpp:122-161. -/
def exponential (mu : XR) : ContDist where
  draw u := -mu ⊗ M.ln u
  deviate := Set.Ioc 0 1
  min := 0
  max := pinf
  pdf x := if x < 0 then 0 else M.exp (-x ⊘ mu) ⊘ mu
  cdf x := if x ≤ 0 then 0 else 1 ⊖ M.exp (-x ⊘ mu)
  icdf x :=
    if x < 0 ∨ 1 < x then nan
    else if eq x 1 then pinf
    else -mu ⊗ M.ln (1 ⊖ x)

/-- twosided_exponential_dist.hpp:156-169 `icdf`. -/
def twosidedIcdf (mu x : XR) : XR :=
  if x < 0 ∨ 1 < x then nan
  else if eq x 1 then pinf
  else if eq x 0 then ninf
  else if x < fin (1 / 2) then mu ⊗ M.ln (2 ⊗ x) else -mu ⊗ M.ln (2 ⊖ 2 ⊗ x)

/-- twosided_exponential_dist.hpp:123-169. -/
def twosidedExponential (mu : XR) : ContDist where
  draw u := twosidedIcdf M mu u
  deviate := Set.Ioo 0 1
  min := -pinf
  max := pinf
  pdf x := M.exp (-XR.abs x ⊘ mu) ⊘ (2 ⊗ mu)
  cdf x := if x ≤ 0 then M.exp (x ⊘ mu) ⊘ 2 else 1 ⊖ M.exp (-x ⊘ mu) ⊘ 2
  icdf := twosidedIcdf M mu

/-- tent_dist.hpp:116-119 `icdf_`. -/
def tentIcdf (m d x : XR) : XR :=
  if x < 1 ⊘ 2 then (fin (-1) ⊕ M.sqrt (2 ⊗ x)) ⊗ d ⊕ m else (1 ⊖ M.sqrt (2 ⊖ 2 ⊗ x)) ⊗ d ⊕ m

/-- tent_dist.hpp:132-187. -/
def tent (m d : XR) : ContDist where
  draw u := tentIcdf M m d u
  deviate := Set.Icc 0 1
  min := m ⊖ d
  max := m ⊕ d
  pdf x :=
    let x := x ⊖ m
    if x ≤ -d ∨ d ≤ x then 0
    else if x < 0 then (1 ⊕ x ⊘ d) ⊘ d else (1 ⊖ x ⊘ d) ⊘ d
  cdf x :=
    let x := x ⊖ m
    if x ≤ -d then 0
    else if x ≤ 0 then (x ⊕ d) ⊗ (x ⊕ d) ⊘ (2 ⊗ d ⊗ d)
    else if x < d then 1 ⊖ (x ⊖ d) ⊗ (x ⊖ d) ⊘ (2 ⊗ d ⊗ d)
    else 1
  icdf x := if x < 0 ∨ 1 < x then nan else tentIcdf M m d x

/-- pareto_dist.hpp:128-179. -/
def pareto (gamma theta : XR) : ContDist where
  draw u := (M.pow u (fin (-1) ⊘ gamma) ⊖ 1) ⊗ theta
  deviate := Set.Ioo 0 1
  min := 0
  max := pinf
  pdf x := if x < 0 then 0 else gamma ⊘ theta ⊗ M.pow (1 ⊕ x ⊘ theta) (-gamma ⊖ 1)
  cdf x := if x ≤ 0 then 0 else 1 ⊖ M.pow (1 ⊕ x ⊘ theta) (-gamma)
  icdf x :=
    if x ≤ 0 ∨ 1 ≤ x then nan
    else if eq x 0 then 0
    else if eq x 1 then pinf
    else (M.pow (1 ⊖ x) (fin (-1) ⊘ gamma) ⊖ 1) ⊗ theta

/-- powerlaw_dist.hpp:128-181. -/
def powerlaw (gamma theta : XR) : ContDist where
  draw u := theta ⊗ M.pow u (fin (-1) ⊘ gamma)
  deviate := Set.Ioc 0 1
  min := theta
  max := pinf
  pdf x := if x < theta then 0 else gamma ⊘ theta ⊗ M.pow (x ⊘ theta) (-gamma ⊖ 1)
  cdf x := if x ≤ 0 then 0 else 1 ⊖ M.pow (x ⊘ theta) (-gamma)
  icdf x :=
    if x ≤ 0 ∨ 1 ≤ x then nan
    else if eq x 0 then theta
    else if eq x 1 then pinf
    else theta ⊗ M.pow (1 ⊖ x) (fin (-1) ⊘ gamma)

/-- weibull_dist.hpp:127-188. -/
def weibull (theta beta : XR) : ContDist where
  draw u := theta ⊗ M.pow (-M.ln u) (1 ⊘ beta)
  deviate := Set.Ioc 0 1
  min := 0
  max := pinf
  pdf x :=
    if x < 0 then 0
    else
      let x := x ⊘ theta
      if 0 < x then
        let t1 := M.pow x beta
        let t2 := t1 ⊘ x
        beta ⊘ theta ⊗ t2 ⊗ M.exp (-t1)
      else if eq beta 1 then 1 ⊘ theta
      else if 1 < beta then 0
      else nan
  cdf x :=
    let x := x ⊘ theta
    if x ≤ 0 then 0 else -M.expm1 (-M.pow x beta)
  icdf x := if x < 0 ∨ 1 ≤ x then nan else theta ⊗ M.pow (-M.ln1p (-x)) (1 ⊘ beta)

/-- logistic_dist.hpp:117-119 `icdf_`. -/
def logisticIcdf (theta eta x : XR) : XR := eta ⊖ M.ln ((1 ⊖ x) ⊘ x) ⊗ theta

/-- logistic_dist.hpp:132-184. -/
def logistic (theta eta : XR) : ContDist where
  draw u := logisticIcdf M theta eta u
  deviate := Set.Ioo 0 1
  min := -pinf
  max := pinf
  pdf x :=
    let t1 := M.exp (-XR.abs ((x ⊖ eta) ⊘ theta))
    let t2 := 1 ⊕ t1
    t1 ⊘ (theta ⊗ t2 ⊗ t2)
  cdf x :=
    let t1 := M.exp (-XR.abs ((x ⊖ eta) ⊘ theta))
    if eta ≤ x then 1 ⊘ (1 ⊕ t1) else t1 ⊘ (1 ⊕ t1)
  icdf x :=
    if x < 0 ∨ 1 < x then nan
    else if eq x 0 then -pinf
    else if eq x 1 then pinf
    else logisticIcdf M theta eta x

/-- extreme_value_dist.hpp:126-179. -/
def extremeValue (theta eta : XR) : ContDist where
  draw u := eta ⊕ theta ⊗ M.ln (-M.ln u)
  deviate := Set.Ioo 0 1
  min := -pinf
  max := pinf
  pdf x :=
    let x := (x ⊖ eta) ⊘ theta
    M.exp (x ⊖ M.exp x) ⊘ theta
  cdf x :=
    let x := (x ⊖ eta) ⊘ theta
    1 ⊖ M.exp (-M.exp x)
  icdf x :=
    if x ≤ 0 ∨ 1 ≤ x then nan
    else if eq x 0 then -pinf
    else if eq x 1 then pinf
    else eta ⊕ theta ⊗ M.ln (-M.ln (1 ⊖ x))

/-- cauchy_dist.hpp:118-121 `icdf_`; `pi` is the constant `math::constants<result_type>::pi`. -/
def cauchyIcdf (pi : ℝ) (theta eta x : XR) : XR :=
  let t := x ⊗ fin pi
  eta ⊖ theta ⊗ M.cos t ⊘ M.sin t

/-- cauchy_dist.hpp:134-188; `pi` and `oneOverPi` are the constants of constants.hpp. -/
def cauchy (pi oneOverPi : ℝ) (theta eta : XR) : ContDist where
  draw u := cauchyIcdf M pi theta eta u
  deviate := Set.Ioo 0 1
  min := -pinf
  max := pinf
  pdf x :=
    let x := (x ⊖ eta) ⊘ theta
    fin oneOverPi ⊘ (1 ⊕ x ⊗ x) ⊘ theta
  cdf x :=
    let x := (x ⊖ eta) ⊘ theta
    fin oneOverPi ⊗ M.atan x ⊕ 1 ⊘ 2
  icdf x :=
    if x ≤ 0 ∨ 1 ≤ x then nan
    else if eq x 0 then -pinf
    else if eq x 1 then pinf
    else cauchyIcdf M pi theta eta x

/-- rayleigh_dist.hpp:160-168 `icdf`. -/
def rayleighIcdf (nu x : XR) : XR := if x < 0 ∨ 1 < x then nan else nu ⊗ M.sqrt (fin (-2) ⊗ M.ln (1 ⊖ x))

/-- rayleigh_dist.hpp:122-168. -/
def rayleigh (nu : XR) : ContDist where
  draw u := rayleighIcdf M nu u
  deviate := Set.Ioo 0 1
  min := 0
  max := pinf
  pdf x :=
    if x ≤ 0 then 0
    else
      let t := x ⊘ (nu ⊗ nu)
      t ⊗ M.exp (-t ⊗ x ⊘ 2)
  cdf x := if x ≤ 0 then 0 else 1 ⊖ M.exp (-x ⊗ x ⊘ (2 ⊗ nu ⊗ nu))
  icdf := rayleighIcdf M nu

/-- constants.hpp:69, 76, 77 `constants<double>`: the literals of `pi`, `one_over_pi` and `one_over_sqrt_2` as `double`s. -/
def piDouble : ℝ := 7074237752028440 * 2 ^ (-51 : ℤ)
@[inherit_doc piDouble] def oneOverPiDouble : ℝ := 5734161139222659 * 2 ^ (-54 : ℤ)
@[inherit_doc piDouble] def oneOverSqrt2Double : ℝ := 6369051672525773 * 2 ^ (-53 : ℤ)

/-- special_functions.hpp:763, 765: the literal 0.6744897501960817 as a `double`. -/
def quartileDouble : ℝ := 6075263575296585 * 2 ^ (-53 : ℤ)

/-- special_functions.hpp:760-768 `Phi`; `c` is the constant `one_over_sqrt_2`, `q` the literal 0.6744897501960817. -/
def Phi (c q : ℝ) (x : XR) : XR :=
  let x := x ⊗ fin c
  if x < fin (-q) ⊗ fin c then fin (1 / 2) ⊗ M.erfc (-x)
  else if fin q ⊗ fin c < x then 1 ⊖ fin (1 / 2) ⊗ M.erfc x
  else fin (1 / 2) ⊕ fin (1 / 2) ⊗ M.erf x

/-- truncated_normal_dist.hpp:61-71 `update_Phi`: the cached value for the lower end `a`. -/
def truncPhiA (c q : ℝ) (mu sigma a : XR) : XR := if ninf < a then Phi M c q ((a ⊖ mu) ⊘ sigma) else 0
/-- truncated_normal_dist.hpp:61-71 `update_Phi`: the cached value for the upper end `b`. -/
def truncPhiB (c q : ℝ) (mu sigma b : XR) : XR := if b < pinf then Phi M c q ((b ⊖ mu) ⊘ sigma) else 1

/-- truncated_normal_dist.hpp:215-220 `icdf`; `inv` is `math::inv_Phi`. -/
def truncatedNormalIcdf (inv : XR → XR) (c q : ℝ) (mu sigma a b x : XR) : XR :=
  inv (x ⊗ (truncPhiB M c q mu sigma b ⊖ truncPhiA M c q mu sigma a) ⊕ truncPhiA M c q mu sigma a) ⊗ sigma ⊕ mu

/-- truncated_normal_dist.hpp:155-221; `d` is the constant `one_over_sqrt_2pi`. -/
def truncatedNormal (inv : XR → XR) (c q d : ℝ) (mu sigma a b : XR) : ContDist where
  draw u := truncatedNormalIcdf M inv c q mu sigma a b u
  deviate := Set.Ioo 0 1
  min := a
  max := b
  pdf x :=
    let x := (x ⊖ mu) ⊘ sigma
    fin d ⊘ sigma ⊗ M.exp (-x ⊗ x ⊘ 2) ⊘ (truncPhiB M c q mu sigma b ⊖ truncPhiA M c q mu sigma a)
  cdf x :=
    let x := (x ⊖ mu) ⊘ sigma
    (Phi M c q x ⊖ truncPhiA M c q mu sigma a) ⊘ (truncPhiB M c q mu sigma b ⊖ truncPhiA M c q mu sigma a)
  icdf x := truncatedNormalIcdf M inv c q mu sigma a b x

/-- normal_dist.hpp:163-166 `cdf`. -/
def normalCdf (c q : ℝ) (mu sigma x : XR) : XR := Phi M c q ((x ⊖ mu) ⊘ sigma)

/-- lognormal_dist.hpp:163-169 `cdf`. -/
def lognormalCdf (c : ℝ) (mu sigma x : XR) : XR := if x ≤ 0 then 0 else M.erfc (fin c ⊗ (mu ⊖ M.ln x) ⊘ sigma) ⊘ 2

/-- maxwell_dist.hpp:142-148 `pdf`; `c` is the constant `sqrt_2_over_pi`. -/
def maxwellPdf (c : ℝ) (theta x : XR) : XR :=
  let x2 := x ⊗ x
  let t2 := theta ⊗ theta
  fin c ⊗ x2 ⊗ M.exp (-x2 ⊘ (2 ⊗ t2)) ⊘ (t2 ⊗ theta)

/-- chi_square_dist.hpp:152-158 `pdf`; `nu` is the `int` parameter, which every floating-point type of interest holds exactly. -/
def chiSquarePdf (nu : ℤ) (x : XR) : XR :=
  if x < 0 then 0
  else
    let x := x ⊘ 2
    M.pow x (fin nu ⊘ 2 ⊖ 1) ⊘ (M.exp (x ⊕ M.lnGamma (fin nu ⊘ 2)) ⊗ 2)

/-- student_t_dist.hpp:161-162 `cdf`, the argument of the incomplete Beta function; `nu` is the `int` parameter. -/
def studentArg (nu : ℤ) (x : XR) : XR :=
  let t1 := M.sqrt (x ⊗ x ⊕ fin nu)
  (x ⊕ t1) ⊘ (2 ⊗ t1)

end Rounded
end
end Trng
