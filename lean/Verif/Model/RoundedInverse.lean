import Verif.Model.Rounded

/-! Model of the inverse normal distribution function and of the distributions that sample by it, in floating-point arithmetic.
Model/Normal.lean models the same code on exact reals.  Simplifications as in Model/Rounded.lean. -/
namespace Trng
noncomputable section
open Classical XR

namespace Rounded
variable (M : Machine)

local infixl:65 " ⊕ " => Machine.add M
local infixl:65 " ⊖ " => Machine.sub M
local infixl:70 " ⊗ " => Machine.mul M
local infixl:70 " ⊘ " => Machine.div M

/-- special_functions.hpp:790-810 `inv_Phi_traits`: the coefficients are literals of type `long double`, cast to the number type.  For `double`
rounding them twice gives the same as rounding the decimal number once (compared by calculation outside Lean); 0.5 is exact. -/
def lit (x : ℝ) : XR := M.rnd x

/-- special_functions.hpp:842-846, 868-873: the numerator of the outer regions. -/
def tailNum (q : XR) : XR :=
  ((((lit M (-7.784894002430293e-03) ⊗ q ⊕ lit M (-3.223964580411365e-01)) ⊗ q ⊕ lit M (-2.400758277161838e+00)) ⊗ q
    ⊕ lit M (-2.549732539343734e+00)) ⊗ q ⊕ lit M 4.374664141464968e+00) ⊗ q ⊕ lit M 2.938163982698783e+00

/-- special_functions.hpp:847-849, 874-876: the denominator of the outer regions. -/
def tailDen (q : XR) : XR :=
  (((lit M 7.784695709041462e-03 ⊗ q ⊕ lit M 3.224671290700398e-01) ⊗ q ⊕ lit M 2.445134137142996e+00) ⊗ q
    ⊕ lit M 3.754408661907416e+00) ⊗ q ⊕ 1

/-- special_functions.hpp:854-859: the numerator of the central region, without the factor `q`. -/
def centreNum (r : XR) : XR :=
  ((((lit M (-3.969683028665376e+01) ⊗ r ⊕ lit M 2.209460984245205e+02) ⊗ r ⊕ lit M (-2.759285104469687e+02)) ⊗ r
    ⊕ lit M 1.383577518672690e+02) ⊗ r ⊕ lit M (-3.066479806614716e+01)) ⊗ r ⊕ lit M 2.506628277459239e+00

/-- special_functions.hpp:860-864: the denominator of the central region. -/
def centreDen (r : XR) : XR :=
  ((((lit M (-5.447609879822406e+01) ⊗ r ⊕ lit M 1.615858368580409e+02) ⊗ r ⊕ lit M (-1.556989798598866e+02)) ⊗ r
    ⊕ lit M 6.680131188771972e+01) ⊗ r ⊕ lit M (-1.328068155288572e+01)) ⊗ r ⊕ 1

/-- special_functions.hpp:826-878 `inv_Phi_approx`. -/
def invPhiApprox (x : XR) : XR :=
  if x < 0 ∨ 1 < x then nan
  else if eq x 0 then -pinf
  else if eq x 1 then pinf
  else if x < lit M 0.02425 then
    let q := M.sqrt (fin (-2) ⊗ M.ln x)
    tailNum M q ⊘ tailDen M q
  else if x < lit M (1 - 0.02425) then
    let q := x ⊖ fin (1 / 2)
    let r := q ⊗ q
    centreNum M r ⊗ q ⊘ centreDen M r
  else
    let q := M.sqrt (fin (-2) ⊗ M.ln1p (-x));
    -tailNum M q ⊘ tailDen M q

/-- special_functions.hpp:885-889, 904-908: one Halley step of `inv_Phi`, from the guess `y`; `c` and `s` are the constants
`one_over_sqrt_2` and `sqrt_2pi`, `k` is the literal 0.6744897501960817 of `Phi`. -/
def halleyPhi (c k s : ℝ) (x y : XR) : XR :=
  let e := Phi M c k y ⊖ x
  let u := e ⊗ fin s ⊗ M.exp (y ⊗ y ⊗ fin (1 / 2))
  y ⊖ u ⊘ (1 ⊕ y ⊗ u ⊗ fin (1 / 2))

/-- special_functions.hpp:880-911 `inv_Phi`; `wide` says that the number type is larger than ten bytes. -/
def invPhi (c k s : ℝ) (wide : Bool) (x : XR) : XR := refine wide (halleyPhi M c k s x) (invPhiApprox M x)

/-- constants.hpp:75 `constants<double>::sqrt_2pi` as a `double`. -/
def sqrt2piDouble : ℝ := 5644425081792262 * 2 ^ (-51 : ℤ)

/-- special_functions.hpp:990-992 `inv_Phi(double)`. -/
def invPhiDouble (x : XR) : XR := invPhi M oneOverSqrt2Double quartileDouble sqrt2piDouble false x

/-- normal_dist.hpp:129-170; `c`, `k` as above, `d` is the constant `one_over_sqrt_2pi`, `inv` is `inv_Phi`. -/
def normal (inv : XR → XR) (c k d : ℝ) (mu sigma : XR) : ContDist where
  draw u := inv u ⊗ sigma ⊕ mu
  deviate := Set.Ioo 0 1
  min := -pinf
  max := pinf
  pdf x := fin d ⊘ sigma ⊗ M.exp ((x ⊖ mu) ⊗ (x ⊖ mu) ⊘ (fin (-2) ⊗ sigma ⊗ sigma))
  cdf x := normalCdf M c k mu sigma x
  icdf x := inv x ⊗ sigma ⊕ mu

end Rounded
end
end Trng
