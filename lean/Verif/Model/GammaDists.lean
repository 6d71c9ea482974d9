import Verif.Model.Special
import Verif.Model.Continuous

/-! Model of the distributions built on the incomplete Gamma function: trng/gamma_dist.hpp and chi_square_dist.hpp.  The
definitions take the implementations of `GammaP(a, x)` and `inv_GammaP(a, p)` as arguments `GP` and `inv`
(`Special.gammaP` and `Special.invGammaP` are the ones of the library). -/
namespace Trng
noncomputable section
open Classical XR Special

/-- gamma_dist.hpp:118-190. -/
def gammaDist (GP inv : XR → XR → XR) (kappa theta : XR) : ContDist where
  draw u := inv kappa u * theta
  deviate := Set.Ico 0 1
  min := 0
  max := pinf
  pdf x :=
    if x < 0 then 0
    else
      let x := x / theta
      XR.exp ((kappa - 1) * ln x - x - lnGamma kappa) / theta
  cdf x := if x ≤ 0 then 0 else GP kappa (x / theta)
  icdf x :=
    if x ≤ 0 ∨ 1 ≤ x then nan
    else if XR.eq x 0 then 0
    else if XR.eq x 1 then pinf
    else inv kappa x * theta

/-- chi_square_dist.hpp:112-180. -/
def chiSquareDist (GP inv : XR → XR → XR) (nu : ℤ) : ContDist where
  draw u := inv (ofInt nu / 2) u * 2
  deviate := Set.Ico 0 1
  min := 0
  max := pinf
  pdf x :=
    if x < 0 then 0
    else
      let x := x / 2
      XR.pow x (ofInt nu / 2 - 1) / (XR.exp (x + lnGamma (ofInt nu / 2)) * 2)
  cdf x := if x ≤ 0 then 0 else GP (ofInt nu / 2) (x / 2)
  icdf x :=
    if x ≤ 0 ∨ 1 ≤ x then nan
    else if XR.eq x 0 then 0
    else if XR.eq x 1 then pinf
    else inv (ofInt nu / 2) x * 2

end
end Trng
