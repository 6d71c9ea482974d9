import Verif.Model.Special
import Verif.Model.Continuous

/-! Model of the distributions built on the incomplete Beta function: trng/beta_dist.hpp, student_t_dist.hpp and
snedecor_f_dist.hpp.  The definitions take the implementations of `Beta_I(x, p, q, norm)` and `inv_Beta_I(x, p, q, norm)` as
arguments `BI` and `inv` (`Special.betaI` and `Special.invBetaI` are the ones of the library), and the limits of the number
type for `Beta`.  Undefined behaviour and endless loops in them appear as NaN. -/
namespace Trng
noncomputable section
open Classical XR Special

/-- The type of `Beta_I` and `inv_Beta_I`, with the argument `norm` last. -/
abbrev BetaFun := XR → XR → XR → XR → Option XR

/-- beta_dist.hpp:57-92 `param_type`, with the cached `norm_`. -/
structure BetaParam where
  alpha : XR
  beta : XR
  norm : XR

namespace BetaParam
/-- beta_dist.hpp:59, 84: the constructor `param_type(alpha, beta)`. -/
def mk' (L : Limits) (a b : XR) : BetaParam := ⟨a, b, Special.beta L a b⟩
/-- beta_dist.hpp:72-76 `alpha(alpha_new)`. -/
def setAlpha (L : Limits) (P : BetaParam) (a : XR) : BetaParam := { P with alpha := a, norm := Special.beta L a P.beta }
/-- beta_dist.hpp:77-81 `beta(beta_new)`. -/
def setBeta (L : Limits) (P : BetaParam) (b : XR) : BetaParam := { P with beta := b, norm := Special.beta L P.alpha b }
/-- beta_dist.hpp:89-92 `operator==`. -/
def eq (P Q : BetaParam) : Prop := XR.eq P.alpha Q.alpha
end BetaParam

/-- beta_dist.hpp:139-198. -/
def betaDist (BI inv : BetaFun) (P : BetaParam) : ContDist where
  draw u := (inv u P.alpha P.beta P.norm).getD nan
  deviate := Set.Ioo 0 1
  min := 0
  max := 1
  pdf x :=
    if x < 0 ∨ 1 < x then 0
    else if (XR.eq x 0 ∧ P.alpha - 1 < 0) ∨ (XR.eq x 1 ∧ P.beta - 1 < 0) then nan
    else 1 / P.norm * XR.pow x (P.alpha - 1) * XR.pow (1 - x) (P.beta - 1)
  cdf x := if x ≤ 0 then 0 else if 1 ≤ x then 1 else (BI x P.alpha P.beta P.norm).getD nan
  icdf x :=
    if x < 0 ∨ 1 < x then nan
    else if XR.eq x 0 then 0
    else if XR.eq x 1 then 1
    else (inv x P.alpha P.beta P.norm).getD nan

/-- student_t_dist.hpp:112-117 `icdf_`; the three-argument `inv_Beta_I` (special_functions.hpp:722-750) passes `Beta(p, q)`. -/
def studentIcdf (L : Limits) (inv : BetaFun) (nu : ℤ) (x : XR) : XR :=
  match inv x (ofInt nu / 2) (ofInt nu / 2) (Special.beta L (ofInt nu / 2) (ofInt nu / 2)) with
  | none => nan
  | some t => sqrt (ofInt nu / (t * (1 - t))) * (t - 1 / 2)

/-- student_t_dist.hpp:128-180. -/
def studentDist (L : Limits) (BI inv : BetaFun) (nu : ℤ) : ContDist where
  draw u := studentIcdf L inv nu u
  deviate := Set.Ioo 0 1
  min := -pinf
  max := pinf
  pdf x :=
    let norm := XR.exp (lnGamma (ofInt (nu + 1) / 2) - lnGamma (ofInt nu / 2)) / sqrt (fin Real.pi * ofInt nu)
    norm * XR.pow (1 + x * x / ofInt nu) (ofInt (nu + 1) / -2)
  cdf x :=
    let t1 := sqrt (x * x + ofInt nu)
    let t2 := (x + t1) / (2 * t1)
    (BI t2 (ofInt nu / 2) (ofInt nu / 2) (Special.beta L (ofInt nu / 2) (ofInt nu / 2))).getD nan
  icdf x :=
    if x ≤ 0 ∨ 1 ≤ x then nan
    else if XR.eq x 0 then -pinf
    else if XR.eq x 1 then pinf
    else studentIcdf L inv nu x

/-- snedecor_f_dist.hpp:115-121 `icdf_`. -/
def snedecorIcdf (L : Limits) (inv : BetaFun) (n m : ℤ) (x : XR) : XR :=
  match inv x (1 / 2 * ofInt n) (1 / 2 * ofInt m) (Special.beta L (1 / 2 * ofInt n) (1 / 2 * ofInt m)) with
  | none => nan
  | some t => t / (1 - t) * ofInt m / ofInt n

/-- snedecor_f_dist.hpp:131-198. -/
def snedecorDist (L : Limits) (BI inv : BetaFun) (n m : ℤ) : ContDist where
  draw u := snedecorIcdf L inv n m u
  deviate := Set.Ico 0 1
  min := 0
  max := pinf
  pdf x :=
    let n := ofInt n
    let m := ofInt m
    XR.exp (1 / 2 * ln (n / m) * n + ln x * (1 / 2 * n - 1) - ln (1 + n * x / m) * (1 / 2 * n + 1 / 2 * m) -
      lnGamma (1 / 2 * n) - lnGamma (1 / 2 * m) + lnGamma (1 / 2 * (n + m)))
  cdf x :=
    let n := ofInt n
    let m := ofInt m
    (BI (n * x / (m + n * x)) (1 / 2 * n) (1 / 2 * m) (Special.beta L (1 / 2 * n) (1 / 2 * m))).getD nan
  icdf x :=
    if x ≤ 0 ∨ 1 ≤ x then nan
    else if XR.eq x 0 then 0
    else if XR.eq x 1 then pinf
    else snedecorIcdf L inv n m x

end
end Trng
