import Verif.Spec.DistObjects
import Verif.Model.Normal
import Verif.Model.BetaDists
import Verif.Model.DiscreteLaws
import Verif.Model.Correlated

/-! Model of the parameter classes of the distributions (`param_type` in trng/*_dist.hpp) with the members that are computed from
the parameters and kept: constructors, default constructors, getters, setters and `operator==`.  A distribution object holds
one parameter object (and nothing else, but for correlated_normal_dist); its setters, where it has them, forward to those of
the parameter object, `param()` returns it and `param(P)` assigns it. -/
namespace Trng.DistObjects
noncomputable section
open Classical XR

/-! ### Classes that hold just the parameters -/

/-- exponential_dist.hpp:55-57, the members of `param_type` and their default values (line 65). -/
structure Exponential where
  mu : XR

namespace Exponential
/-- exponential_dist.hpp:57, 65 `param_type()`. -/
def default : Exponential := { mu := 1 }
/-- exponential_dist.hpp:67, the constructor. -/
def construct (mu : XR) : Exponential := { mu := mu }
/-- exponential_dist.hpp:63 `mu(mu_new)`; line 142 forwards to it. -/
def setMu (P : Exponential) (x : XR) : Exponential := { P with mu := x }
/-- exponential_dist.hpp:72-74 `operator==`. -/
def eq (P Q : Exponential) : Prop := XR.eq P.mu Q.mu
/-- The class, with the getter of line 61. -/
def cls : ParamClass where
  Args := XR
  State := Exponential
  Setter := XR
  construct a := some (construct a)
  default := default
  get P := P.mu
  set x P := some (P.setMu x)
  eq := eq
  assign := Spec.assign1
  comparable a := a ≠ nan
end Exponential

/-- twosided_exponential_dist.hpp:56-58, the members of `param_type` and their default values (line 66). -/
structure TwosidedExponential where
  mu : XR

namespace TwosidedExponential
/-- twosided_exponential_dist.hpp:58, 66 `param_type()`. -/
def default : TwosidedExponential := { mu := 1 }
/-- twosided_exponential_dist.hpp:68, the constructor. -/
def construct (mu : XR) : TwosidedExponential := { mu := mu }
/-- twosided_exponential_dist.hpp:64 `mu(mu_new)`; line 143 forwards to it. -/
def setMu (P : TwosidedExponential) (x : XR) : TwosidedExponential := { P with mu := x }
/-- twosided_exponential_dist.hpp:73-75 `operator==`. -/
def eq (P Q : TwosidedExponential) : Prop := XR.eq P.mu Q.mu
/-- The class, with the getter of line 62. -/
def cls : ParamClass where
  Args := XR
  State := TwosidedExponential
  Setter := XR
  construct a := some (construct a)
  default := default
  get P := P.mu
  set x P := some (P.setMu x)
  eq := eq
  assign := Spec.assign1
  comparable a := a ≠ nan
end TwosidedExponential

/-- normal_dist.hpp:56-58, the members of `param_type` and their default values (line 70). -/
structure Normal where
  mu : XR
  sigma : XR

namespace Normal
/-- normal_dist.hpp:58, 70 `param_type()`. -/
def default : Normal := { mu := 0, sigma := 1 }
/-- normal_dist.hpp:72, the constructor. -/
def construct (mu : XR) (sigma : XR) : Normal := { mu := mu, sigma := sigma }
/-- normal_dist.hpp:64 `mu(mu_new)`; line 149 forwards to it. -/
def setMu (P : Normal) (x : XR) : Normal := { P with mu := x }
/-- normal_dist.hpp:68 `sigma(sigma_new)`; line 153 forwards to it. -/
def setSigma (P : Normal) (x : XR) : Normal := { P with sigma := x }
/-- normal_dist.hpp:77-79 `operator==`. -/
def eq (P Q : Normal) : Prop := XR.eq P.mu Q.mu ∧ XR.eq P.sigma Q.sigma
/-- The class, with the getters of lines 62, 66. -/
def cls : ParamClass where
  Args := XR × XR
  State := Normal
  Setter := XR ⊕ XR
  construct a := some (construct a.1 a.2)
  default := default
  get P := (P.mu, P.sigma)
  set s P := match s with
    | .inl x => some (P.setMu x)
    | .inr x => some (P.setSigma x)
  eq := eq
  assign := Spec.assign2
  comparable a := a.1 ≠ nan ∧ a.2 ≠ nan
end Normal

/-- lognormal_dist.hpp:57-59, the members of `param_type` and their default values (line 71). -/
structure Lognormal where
  mu : XR
  sigma : XR

namespace Lognormal
/-- lognormal_dist.hpp:59, 71 `param_type()`. -/
def default : Lognormal := { mu := 0, sigma := 1 }
/-- lognormal_dist.hpp:73, the constructor. -/
def construct (mu : XR) (sigma : XR) : Lognormal := { mu := mu, sigma := sigma }
/-- lognormal_dist.hpp:65 `mu(mu_new)`; line 148 forwards to it. -/
def setMu (P : Lognormal) (x : XR) : Lognormal := { P with mu := x }
/-- lognormal_dist.hpp:69 `sigma(sigma_new)`; line 152 forwards to it. -/
def setSigma (P : Lognormal) (x : XR) : Lognormal := { P with sigma := x }
/-- lognormal_dist.hpp:78-80 `operator==`. -/
def eq (P Q : Lognormal) : Prop := XR.eq P.mu Q.mu ∧ XR.eq P.sigma Q.sigma
/-- The class, with the getters of lines 63, 67. -/
def cls : ParamClass where
  Args := XR × XR
  State := Lognormal
  Setter := XR ⊕ XR
  construct a := some (construct a.1 a.2)
  default := default
  get P := (P.mu, P.sigma)
  set s P := match s with
    | .inl x => some (P.setMu x)
    | .inr x => some (P.setSigma x)
  eq := eq
  assign := Spec.assign2
  comparable a := a.1 ≠ nan ∧ a.2 ≠ nan
end Lognormal

/-- tent_dist.hpp:55-57, the members of `param_type` and their default values (line 69). -/
structure Tent where
  m : XR
  d : XR

namespace Tent
/-- tent_dist.hpp:57, 69 `param_type()`. -/
def default : Tent := { m := 0, d := 1 }
/-- tent_dist.hpp:71, the constructor. -/
def construct (m : XR) (d : XR) : Tent := { m := m, d := d }
/-- tent_dist.hpp:63 `m(m_new)`; line 152 forwards to it. -/
def setM (P : Tent) (x : XR) : Tent := { P with m := x }
/-- tent_dist.hpp:67 `d(d_new)`; line 156 forwards to it. -/
def setD (P : Tent) (x : XR) : Tent := { P with d := x }
/-- tent_dist.hpp:76-78 `operator==`. -/
def eq (P Q : Tent) : Prop := XR.eq P.m Q.m ∧ XR.eq P.d Q.d
/-- The class, with the getters of lines 61, 65. -/
def cls : ParamClass where
  Args := XR × XR
  State := Tent
  Setter := XR ⊕ XR
  construct a := some (construct a.1 a.2)
  default := default
  get P := (P.m, P.d)
  set s P := match s with
    | .inl x => some (P.setM x)
    | .inr x => some (P.setD x)
  eq := eq
  assign := Spec.assign2
  comparable a := a.1 ≠ nan ∧ a.2 ≠ nan
end Tent

/-- pareto_dist.hpp:55-57, the members of `param_type` and their default values (line 69). -/
structure Pareto where
  gamma : XR
  theta : XR

namespace Pareto
/-- pareto_dist.hpp:57, 69 `param_type()`. -/
def default : Pareto := { gamma := 1, theta := 1 }
/-- pareto_dist.hpp:71-72, the constructor. -/
def construct (gamma : XR) (theta : XR) : Pareto := { gamma := gamma, theta := theta }
/-- pareto_dist.hpp:63 `gamma(gamma_new)`; line 148 forwards to it. -/
def setGamma (P : Pareto) (x : XR) : Pareto := { P with gamma := x }
/-- pareto_dist.hpp:67 `theta(theta_new)`; line 152 forwards to it. -/
def setTheta (P : Pareto) (x : XR) : Pareto := { P with theta := x }
/-- pareto_dist.hpp:77-79 `operator==`. -/
def eq (P Q : Pareto) : Prop := XR.eq P.gamma Q.gamma ∧ XR.eq P.theta Q.theta
/-- The class, with the getters of lines 61, 65. -/
def cls : ParamClass where
  Args := XR × XR
  State := Pareto
  Setter := XR ⊕ XR
  construct a := some (construct a.1 a.2)
  default := default
  get P := (P.gamma, P.theta)
  set s P := match s with
    | .inl x => some (P.setGamma x)
    | .inr x => some (P.setTheta x)
  eq := eq
  assign := Spec.assign2
  comparable a := a.1 ≠ nan ∧ a.2 ≠ nan
end Pareto

/-- powerlaw_dist.hpp:55-57, the members of `param_type` and their default values (line 69). -/
structure Powerlaw where
  gamma : XR
  theta : XR

namespace Powerlaw
/-- powerlaw_dist.hpp:57, 69 `param_type()`. -/
def default : Powerlaw := { gamma := 1, theta := 1 }
/-- powerlaw_dist.hpp:71-72, the constructor. -/
def construct (gamma : XR) (theta : XR) : Powerlaw := { gamma := gamma, theta := theta }
/-- powerlaw_dist.hpp:63 `gamma(gamma_new)`; line 148 forwards to it. -/
def setGamma (P : Powerlaw) (x : XR) : Powerlaw := { P with gamma := x }
/-- powerlaw_dist.hpp:67 `theta(theta_new)`; line 152 forwards to it. -/
def setTheta (P : Powerlaw) (x : XR) : Powerlaw := { P with theta := x }
/-- powerlaw_dist.hpp:77-79 `operator==`. -/
def eq (P Q : Powerlaw) : Prop := XR.eq P.gamma Q.gamma ∧ XR.eq P.theta Q.theta
/-- The class, with the getters of lines 61, 65. -/
def cls : ParamClass where
  Args := XR × XR
  State := Powerlaw
  Setter := XR ⊕ XR
  construct a := some (construct a.1 a.2)
  default := default
  get P := (P.gamma, P.theta)
  set s P := match s with
    | .inl x => some (P.setGamma x)
    | .inr x => some (P.setTheta x)
  eq := eq
  assign := Spec.assign2
  comparable a := a.1 ≠ nan ∧ a.2 ≠ nan
end Powerlaw

/-- weibull_dist.hpp:55-57, the members of `param_type` and their default values (line 69). -/
structure Weibull where
  theta : XR
  beta : XR

namespace Weibull
/-- weibull_dist.hpp:57, 69 `param_type()`. -/
def default : Weibull := { theta := 1, beta := 1 }
/-- weibull_dist.hpp:71, the constructor. -/
def construct (theta : XR) (beta : XR) : Weibull := { theta := theta, beta := beta }
/-- weibull_dist.hpp:63 `theta(theta_new)`; line 147 forwards to it. -/
def setTheta (P : Weibull) (x : XR) : Weibull := { P with theta := x }
/-- weibull_dist.hpp:67 `beta(beta_new)`; line 151 forwards to it. -/
def setBeta (P : Weibull) (x : XR) : Weibull := { P with beta := x }
/-- weibull_dist.hpp:76-78 `operator==`. -/
def eq (P Q : Weibull) : Prop := XR.eq P.theta Q.theta ∧ XR.eq P.beta Q.beta
/-- The class, with the getters of lines 61, 65. -/
def cls : ParamClass where
  Args := XR × XR
  State := Weibull
  Setter := XR ⊕ XR
  construct a := some (construct a.1 a.2)
  default := default
  get P := (P.theta, P.beta)
  set s P := match s with
    | .inl x => some (P.setTheta x)
    | .inr x => some (P.setBeta x)
  eq := eq
  assign := Spec.assign2
  comparable a := a.1 ≠ nan ∧ a.2 ≠ nan
end Weibull

/-- logistic_dist.hpp:55-57, the members of `param_type` and their default values (line 69). -/
structure Logistic where
  theta : XR
  eta : XR

namespace Logistic
/-- logistic_dist.hpp:57, 69 `param_type()`. -/
def default : Logistic := { theta := 1, eta := 0 }
/-- logistic_dist.hpp:71, the constructor. -/
def construct (theta : XR) (eta : XR) : Logistic := { theta := theta, eta := eta }
/-- logistic_dist.hpp:63 `theta(theta_new)`; line 152 forwards to it. -/
def setTheta (P : Logistic) (x : XR) : Logistic := { P with theta := x }
/-- logistic_dist.hpp:67 `eta(eta_new)`; line 156 forwards to it. -/
def setEta (P : Logistic) (x : XR) : Logistic := { P with eta := x }
/-- logistic_dist.hpp:76-78 `operator==`. -/
def eq (P Q : Logistic) : Prop := XR.eq P.theta Q.theta ∧ XR.eq P.eta Q.eta
/-- The class, with the getters of lines 61, 65. -/
def cls : ParamClass where
  Args := XR × XR
  State := Logistic
  Setter := XR ⊕ XR
  construct a := some (construct a.1 a.2)
  default := default
  get P := (P.theta, P.eta)
  set s P := match s with
    | .inl x => some (P.setTheta x)
    | .inr x => some (P.setEta x)
  eq := eq
  assign := Spec.assign2
  comparable a := a.1 ≠ nan ∧ a.2 ≠ nan
end Logistic

/-- extreme_value_dist.hpp:55-57, the members of `param_type` and their default values (line 69). -/
structure ExtremeValue where
  theta : XR
  eta : XR

namespace ExtremeValue
/-- extreme_value_dist.hpp:57, 69 `param_type()`. -/
def default : ExtremeValue := { theta := 1, eta := 0 }
/-- extreme_value_dist.hpp:71, the constructor. -/
def construct (theta : XR) (eta : XR) : ExtremeValue := { theta := theta, eta := eta }
/-- extreme_value_dist.hpp:63 `theta(theta_new)`; line 146 forwards to it. -/
def setTheta (P : ExtremeValue) (x : XR) : ExtremeValue := { P with theta := x }
/-- extreme_value_dist.hpp:67 `eta(eta_new)`; line 150 forwards to it. -/
def setEta (P : ExtremeValue) (x : XR) : ExtremeValue := { P with eta := x }
/-- extreme_value_dist.hpp:76-78 `operator==`. -/
def eq (P Q : ExtremeValue) : Prop := XR.eq P.theta Q.theta ∧ XR.eq P.eta Q.eta
/-- The class, with the getters of lines 61, 65. -/
def cls : ParamClass where
  Args := XR × XR
  State := ExtremeValue
  Setter := XR ⊕ XR
  construct a := some (construct a.1 a.2)
  default := default
  get P := (P.theta, P.eta)
  set s P := match s with
    | .inl x => some (P.setTheta x)
    | .inr x => some (P.setEta x)
  eq := eq
  assign := Spec.assign2
  comparable a := a.1 ≠ nan ∧ a.2 ≠ nan
end ExtremeValue

/-- cauchy_dist.hpp:56-58, the members of `param_type` and their default values (line 70). -/
structure Cauchy where
  theta : XR
  eta : XR

namespace Cauchy
/-- cauchy_dist.hpp:58, 70 `param_type()`. -/
def default : Cauchy := { theta := 1, eta := 0 }
/-- cauchy_dist.hpp:72, the constructor. -/
def construct (theta : XR) (eta : XR) : Cauchy := { theta := theta, eta := eta }
/-- cauchy_dist.hpp:64 `theta(theta_new)`; line 154 forwards to it. -/
def setTheta (P : Cauchy) (x : XR) : Cauchy := { P with theta := x }
/-- cauchy_dist.hpp:68 `eta(eta_new)`; line 158 forwards to it. -/
def setEta (P : Cauchy) (x : XR) : Cauchy := { P with eta := x }
/-- cauchy_dist.hpp:77-79 `operator==`. -/
def eq (P Q : Cauchy) : Prop := XR.eq P.theta Q.theta ∧ XR.eq P.eta Q.eta
/-- The class, with the getters of lines 62, 66. -/
def cls : ParamClass where
  Args := XR × XR
  State := Cauchy
  Setter := XR ⊕ XR
  construct a := some (construct a.1 a.2)
  default := default
  get P := (P.theta, P.eta)
  set s P := match s with
    | .inl x => some (P.setTheta x)
    | .inr x => some (P.setEta x)
  eq := eq
  assign := Spec.assign2
  comparable a := a.1 ≠ nan ∧ a.2 ≠ nan
end Cauchy

/-- rayleigh_dist.hpp:55-57, the members of `param_type` and their default values (line 65). -/
structure Rayleigh where
  nu : XR

namespace Rayleigh
/-- rayleigh_dist.hpp:57, 65 `param_type()`. -/
def default : Rayleigh := { nu := 1 }
/-- rayleigh_dist.hpp:67, the constructor. -/
def construct (nu : XR) : Rayleigh := { nu := nu }
/-- rayleigh_dist.hpp:63 `nu(nu_new)`; line 142 forwards to it. -/
def setNu (P : Rayleigh) (x : XR) : Rayleigh := { P with nu := x }
/-- rayleigh_dist.hpp:72-74 `operator==`. -/
def eq (P Q : Rayleigh) : Prop := XR.eq P.nu Q.nu
/-- The class, with the getter of line 61. -/
def cls : ParamClass where
  Args := XR
  State := Rayleigh
  Setter := XR
  construct a := some (construct a)
  default := default
  get P := P.nu
  set x P := some (P.setNu x)
  eq := eq
  assign := Spec.assign1
  comparable a := a ≠ nan
end Rayleigh

/-- maxwell_dist.hpp:56-58, the members of `param_type` and their default values (line 65). -/
structure Maxwell where
  theta : XR

namespace Maxwell
/-- maxwell_dist.hpp:58, 65 `param_type()`. -/
def default : Maxwell := { theta := 1 }
/-- maxwell_dist.hpp:67, the constructor. -/
def construct (theta : XR) : Maxwell := { theta := theta }
/-- maxwell_dist.hpp:64 `theta(theta_new)`. -/
def setTheta (P : Maxwell) (x : XR) : Maxwell := { P with theta := x }
/-- maxwell_dist.hpp:72-74 `operator==`. -/
def eq (P Q : Maxwell) : Prop := XR.eq P.theta Q.theta
/-- The class, with the getter of line 62. -/
def cls : ParamClass where
  Args := XR
  State := Maxwell
  Setter := XR
  construct a := some (construct a)
  default := default
  get P := P.theta
  set x P := some (P.setTheta x)
  eq := eq
  assign := Spec.assign1
  comparable a := a ≠ nan
end Maxwell

/-- gamma_dist.hpp:56-58, the members of `param_type` and their default values (line 70). -/
structure Gamma where
  kappa : XR
  theta : XR

namespace Gamma
/-- gamma_dist.hpp:58, 70 `param_type()`. -/
def default : Gamma := { kappa := 1, theta := 1 }
/-- gamma_dist.hpp:72-73, the constructor. -/
def construct (kappa : XR) (theta : XR) : Gamma := { kappa := kappa, theta := theta }
/-- gamma_dist.hpp:64 `kappa(kappa_new)`; line 155 forwards to it. -/
def setKappa (P : Gamma) (x : XR) : Gamma := { P with kappa := x }
/-- gamma_dist.hpp:68 `theta(theta_new)`; line 159 forwards to it. -/
def setTheta (P : Gamma) (x : XR) : Gamma := { P with theta := x }
/-- gamma_dist.hpp:78-80 `operator==`. -/
def eq (P Q : Gamma) : Prop := XR.eq P.kappa Q.kappa ∧ XR.eq P.theta Q.theta
/-- The class, with the getters of lines 62, 66. -/
def cls : ParamClass where
  Args := XR × XR
  State := Gamma
  Setter := XR ⊕ XR
  construct a := some (construct a.1 a.2)
  default := default
  get P := (P.kappa, P.theta)
  set s P := match s with
    | .inl x => some (P.setKappa x)
    | .inr x => some (P.setTheta x)
  eq := eq
  assign := Spec.assign2
  comparable a := a.1 ≠ nan ∧ a.2 ≠ nan
end Gamma

/-- chi_square_dist.hpp:56-58, the members of `param_type` and their default values (line 66). -/
structure ChiSquare where
  nu : ℤ

namespace ChiSquare
/-- chi_square_dist.hpp:58, 66 `param_type()`. -/
def default : ChiSquare := { nu := 1 }
/-- chi_square_dist.hpp:68, the constructor. -/
def construct (nu : ℤ) : ChiSquare := { nu := nu }
/-- chi_square_dist.hpp:64 `nu(nu_new)`; line 149 forwards to it. -/
def setNu (P : ChiSquare) (x : ℤ) : ChiSquare := { P with nu := x }
/-- chi_square_dist.hpp:73-75 `operator==`. -/
def eq (P Q : ChiSquare) : Prop := P.nu = Q.nu
/-- The class, with the getter of line 62. -/
def cls : ParamClass where
  Args := ℤ
  State := ChiSquare
  Setter := ℤ
  construct a := some (construct a)
  default := default
  get P := P.nu
  set x P := some (P.setNu x)
  eq := eq
  assign := Spec.assign1
  comparable _ := True
end ChiSquare

/-- student_t_dist.hpp:56-58, the members of `param_type` and their default values (line 66). -/
structure StudentT where
  nu : ℤ

namespace StudentT
/-- student_t_dist.hpp:58, 66 `param_type()`. -/
def default : StudentT := { nu := 1 }
/-- student_t_dist.hpp:68, the constructor. -/
def construct (nu : ℤ) : StudentT := { nu := nu }
/-- student_t_dist.hpp:64 `nu(nu_new)`; line 150 forwards to it. -/
def setNu (P : StudentT) (x : ℤ) : StudentT := { P with nu := x }
/-- student_t_dist.hpp:73-75 `operator==`. -/
def eq (P Q : StudentT) : Prop := P.nu = Q.nu
/-- The class, with the getter of line 62. -/
def cls : ParamClass where
  Args := ℤ
  State := StudentT
  Setter := ℤ
  construct a := some (construct a)
  default := default
  get P := P.nu
  set x P := some (P.setNu x)
  eq := eq
  assign := Spec.assign1
  comparable _ := True
end StudentT

/-- snedecor_f_dist.hpp:56-58, the members of `param_type` and their default values (line 70). -/
structure SnedecorF where
  n : ℤ
  m : ℤ

namespace SnedecorF
/-- snedecor_f_dist.hpp:58, 70 `param_type()`. -/
def default : SnedecorF := { n := 1, m := 1 }
/-- snedecor_f_dist.hpp:72, the constructor. -/
def construct (n : ℤ) (m : ℤ) : SnedecorF := { n := n, m := m }
/-- snedecor_f_dist.hpp:64 `n(n_new)`; line 152 forwards to it. -/
def setN (P : SnedecorF) (x : ℤ) : SnedecorF := { P with n := x }
/-- snedecor_f_dist.hpp:68 `m(m_new)`; line 156 forwards to it. -/
def setM (P : SnedecorF) (x : ℤ) : SnedecorF := { P with m := x }
/-- snedecor_f_dist.hpp:77-79 `operator==`. -/
def eq (P Q : SnedecorF) : Prop := P.n = Q.n ∧ P.m = Q.m
/-- The class, with the getters of lines 62, 66. -/
def cls : ParamClass where
  Args := ℤ × ℤ
  State := SnedecorF
  Setter := ℤ ⊕ ℤ
  construct a := some (construct a.1 a.2)
  default := default
  get P := (P.n, P.m)
  set s P := match s with
    | .inl x => some (P.setN x)
    | .inr x => some (P.setM x)
  eq := eq
  assign := Spec.assign2
  comparable _ := True
end SnedecorF

/-! ### Classes with cached members -/

/-- uniform_dist.hpp:54-56, the members of `param_type` (on exact reals; see `Uniform.RealParam` for rounded ones). -/
structure UniformReal where
  a : XR
  b : XR
  d : XR

namespace UniformReal
/-- uniform_dist.hpp:56, 76 `param_type()`. -/
def default : UniformReal := { a := 0, b := 1, d := 1 }
/-- uniform_dist.hpp:78, the constructor. -/
def construct (a b : XR) : UniformReal := { a := a, b := b, d := b - a }
/-- uniform_dist.hpp:64-67 `a(a_new)`; line 153 forwards to it. -/
def setA (P : UniformReal) (x : XR) : UniformReal := { P with a := x, d := P.b - x }
/-- uniform_dist.hpp:71-74 `b(b_new)`; line 157 forwards to it. -/
def setB (P : UniformReal) (x : XR) : UniformReal := { P with b := x, d := x - P.a }
/-- uniform_dist.hpp:83-86 `operator==`. -/
def eq (P Q : UniformReal) : Prop := XR.eq P.a Q.a ∧ XR.eq P.b Q.b ∧ XR.eq P.d Q.d
/-- The class, with the getters of lines 62, 69.  `operator==` compares the cached difference too, so that equal infinite ends
do not compare equal. -/
def cls : ParamClass where
  Args := XR × XR
  State := UniformReal
  Setter := XR ⊕ XR
  construct a := some (construct a.1 a.2)
  default := default
  get P := (P.a, P.b)
  set s P := match s with
    | .inl x => some (P.setA x)
    | .inr x => some (P.setB x)
  eq := eq
  assign := Spec.assign2
  comparable a := a.1 ≠ nan ∧ a.2 ≠ nan ∧ a.2 - a.1 ≠ nan
end UniformReal

namespace UniformInt
open Trng.Uniform
/-- uniform_int_dist.hpp:53, 73 `param_type()`. -/
def default : IntParam := ⟨0, 1, 1⟩
/-- uniform_int_dist.hpp:141-143 `operator==`. -/
def eq (P Q : IntParam) : Prop := P.a = Q.a ∧ P.b = Q.b
/-- The class, with the getters of lines 59, 66 and the constructor and setters of `Uniform.IntParam` (uniform_int_dist.hpp:75,
61-64, 68-71, to which lines 114, 118 forward). -/
def cls : ParamClass where
  Args := ℤ × ℤ
  State := IntParam
  Setter := ℤ ⊕ ℤ
  construct a := IntParam.mk' a.1 a.2
  default := default
  get P := (P.a, P.b)
  set s P := match s with
    | .inl x => P.setA x
    | .inr x => P.setB x
  eq := eq
  assign := Spec.assign2
  comparable _ := True
end UniformInt

/-- truncated_normal_dist.hpp:56-59, the members of `param_type`. -/
structure TruncatedNormal where
  mu : XR
  sigma : XR
  a : XR
  b : XR
  PhiA : XR
  PhiB : XR

namespace TruncatedNormal
/-- truncated_normal_dist.hpp:61-71 `update_Phi`. -/
def updatePhi (P : TruncatedNormal) : TruncatedNormal :=
  { P with PhiA := truncPhiA P.mu P.sigma P.a, PhiB := truncPhiB P.mu P.sigma P.b }
/-- truncated_normal_dist.hpp:58-59, 103 `param_type()`. -/
def default : TruncatedNormal := updatePhi { mu := 0, sigma := 1, a := ninf, b := pinf, PhiA := 0, PhiB := 1 }
/-- truncated_normal_dist.hpp:105-108, the constructor. -/
def construct (mu sigma a b : XR) : TruncatedNormal :=
  updatePhi { mu := mu, sigma := sigma, a := a, b := b, PhiA := 0, PhiB := 1 }
/-- truncated_normal_dist.hpp:77-80 `mu(mu_new)`; line 187 forwards to it. -/
def setMu (P : TruncatedNormal) (x : XR) : TruncatedNormal := updatePhi { P with mu := x }
/-- truncated_normal_dist.hpp:84-87 `sigma(sigma_new)`; line 191 forwards to it. -/
def setSigma (P : TruncatedNormal) (x : XR) : TruncatedNormal := updatePhi { P with sigma := x }
/-- truncated_normal_dist.hpp:91-94 `a(a_new)`; line 195 forwards to it. -/
def setA (P : TruncatedNormal) (x : XR) : TruncatedNormal := updatePhi { P with a := x }
/-- truncated_normal_dist.hpp:98-101 `b(b_new)`; line 199 forwards to it. -/
def setB (P : TruncatedNormal) (x : XR) : TruncatedNormal := updatePhi { P with b := x }
/-- truncated_normal_dist.hpp:113-117 `operator==`. -/
def eq (P Q : TruncatedNormal) : Prop := XR.eq P.mu Q.mu ∧ XR.eq P.sigma Q.sigma ∧ XR.eq P.a Q.a ∧ XR.eq P.b Q.b
/-- The class, with the getters of lines 75, 82, 89, 96. -/
def cls : ParamClass where
  Args := XR × XR × XR × XR
  State := TruncatedNormal
  Setter := XR ⊕ XR ⊕ XR ⊕ XR
  construct a := some (construct a.1 a.2.1 a.2.2.1 a.2.2.2)
  default := default
  get P := (P.mu, P.sigma, P.a, P.b)
  set s P := match s with
    | .inl x => some (P.setMu x)
    | .inr (.inl x) => some (P.setSigma x)
    | .inr (.inr (.inl x)) => some (P.setA x)
    | .inr (.inr (.inr x)) => some (P.setB x)
  eq := eq
  assign := Spec.assign4
  comparable a := a.1 ≠ nan ∧ a.2.1 ≠ nan ∧ a.2.2.1 ≠ nan ∧ a.2.2.2 ≠ nan
end TruncatedNormal

/-- beta_dist.hpp:57-92: the class, with the getters of lines 63, 65, the default constructor of lines 59, 82, and the constructor,
setters and `operator==` of `BetaParam`. -/
def Beta.cls (L : Limits) : ParamClass where
  Args := XR × XR
  State := BetaParam
  Setter := XR ⊕ XR
  construct a := some (.mk' L a.1 a.2)
  default := ⟨1, 1, Special.beta L 1 1⟩
  get P := (P.alpha, P.beta)
  set s P := match s with
    | .inl x => some (P.setAlpha L x)
    | .inr x => some (P.setBeta L x)
  eq := BetaParam.eq
  assign := Spec.assign2
  comparable a := a.1 ≠ nan ∧ a.2 ≠ nan

namespace GeometricParam
/-- geometric_dist.hpp:67-71 `p(p_new)`; line 112 forwards to it. -/
def setP (G : Geometric) (x : XR) : Geometric := { G with p := x, q := 1 - x, oneOverLnQ := 1 / ln (1 - x) }
/-- geometric_dist.hpp:129-131 `operator==`. -/
def eq (P Q : Geometric) : Prop := XR.eq P.p Q.p
/-- The class, with the getter of line 65 and the default argument of line 73. -/
def cls : ParamClass where
  Args := XR
  State := Geometric
  Setter := XR
  construct a := some (Geometric.construct a)
  default := Geometric.construct (1 / 2)
  get P := P.p
  set x P := some (setP P x)
  eq := eq
  assign := Spec.assign1
  comparable a := a ≠ nan
end GeometricParam

namespace BinomialParam
/-- binomial_dist.hpp:55-57, 91 `param_type()`. -/
def default : Binomial := { p := 1 / 2, n := 0, P := [] }
/-- binomial_dist.hpp:59-78 `calc_probabilities`. -/
def recalc (B : Binomial) : Binomial :=
  { B with P := normalize (cumulate (Binomial.entries (ln B.p) (ln (1 - B.p)) B.n (B.n + 1) 0 0)) }
/-- binomial_dist.hpp:82-85 `p(p_new)`; line 122 forwards to it. -/
def setP (B : Binomial) (x : XR) : Binomial := recalc { B with p := x }
/-- binomial_dist.hpp:87-90 `n(n_new)`, for a value that is not negative; line 124 forwards to it. -/
def setN (B : Binomial) (n : ℕ) : Binomial := recalc { B with n := n }
/-- binomial_dist.hpp:146-149 `operator==`. -/
def eq (P Q : Binomial) : Prop := XR.eq P.p Q.p ∧ P.n = Q.n
/-- The class, with the getters of lines 81, 86. -/
def cls : ParamClass where
  Args := XR × ℕ
  State := Binomial
  Setter := XR ⊕ ℕ
  construct a := some (Binomial.construct a.1 a.2)
  default := default
  get P := (P.p, P.n)
  set s P := match s with
    | .inl x => some (setP P x)
    | .inr n => some (setN P n)
  eq := eq
  assign := Spec.assign2
  comparable a := a.1 ≠ nan
end BinomialParam

namespace HypergeometricParam
/-- hypergeometric_dist.hpp:57-61, 94 `param_type()`. -/
def default : Hypergeometric := { n := 0, m := 0, d := 0, xmin := 0, xmax := 0, P := [] }
/-- hypergeometric_dist.hpp:63-76 `calc_probabilities`. -/
def recalc (H : Hypergeometric) : Hypergeometric :=
  { H with
    xmin := Hypergeometric.lower H.n H.m H.d
    xmax := Hypergeometric.upper H.m H.d
    P := normalize (cumulate ((List.range (Hypergeometric.upper H.m H.d + 1 - Hypergeometric.lower H.n H.m H.d).toNat).map
      fun i : ℕ => Hypergeometric.entry H.n H.m (Hypergeometric.lower H.n H.m H.d + (i : ℤ)))) }
/-- hypergeometric_dist.hpp:80-83 `n(n_new)`; line 125 forwards to it. -/
def setN (H : Hypergeometric) (x : ℤ) : Hypergeometric := recalc { H with n := x }
/-- hypergeometric_dist.hpp:85-88 `m(m_new)`; line 127 forwards to it. -/
def setM (H : Hypergeometric) (x : ℤ) : Hypergeometric := recalc { H with m := x }
/-- hypergeometric_dist.hpp:90-93 `d(d_new)`; line 129 forwards to it. -/
def setD (H : Hypergeometric) (x : ℤ) : Hypergeometric := recalc { H with d := x }
/-- hypergeometric_dist.hpp:152-155 `operator==`. -/
def eq (P Q : Hypergeometric) : Prop := P.n = Q.n ∧ P.m = Q.m ∧ P.d = Q.d
/-- The class, with the getters of lines 79, 84, 89.  The sums and differences in `calc_probabilities` are those of the integers:
their overflow for parameters close to the limits of `int` is not modelled. -/
def cls : ParamClass where
  Args := ℤ × ℤ × ℤ
  State := Hypergeometric
  Setter := ℤ ⊕ ℤ ⊕ ℤ
  construct a := some (Hypergeometric.construct a.1 a.2.1 a.2.2)
  default := default
  get P := (P.n, P.m, P.d)
  set s P := match s with
    | .inl x => some (setN P x)
    | .inr (.inl x) => some (setM P x)
    | .inr (.inr x) => some (setD P x)
  eq := eq
  assign := Spec.assign3
  comparable _ := True
end HypergeometricParam

/-- poisson_dist.hpp:57-58 and zero_truncated_poisson_dist.hpp:56-57, the members of `param_type`. -/
structure MeanTable where
  mu : XR
  P : List XR

namespace MeanTable
/-- poisson_dist.hpp:57-58, 76 and zero_truncated_poisson_dist.hpp:56-57, 77 `param_type()`. -/
def default : MeanTable := { mu := 0, P := [] }
/-- poisson_dist.hpp:128-130 and zero_truncated_poisson_dist.hpp:135-138 `operator==`. -/
def eq (P Q : MeanTable) : Prop := XR.eq P.mu Q.mu
/-- poisson_dist.hpp:60-68 `calc_probabilities`. -/
def calcPoisson (M : MeanTable) : Option MeanTable := (Poisson.table M.mu).map fun P => { M with P := P }
/-- poisson_dist.hpp:77, the constructor. -/
def constructPoisson (mu : XR) : Option MeanTable := calcPoisson { mu := mu, P := [] }
/-- poisson_dist.hpp:72-75 `mu(mu_new)`; line 116 forwards to it. -/
def setMuPoisson (M : MeanTable) (x : XR) : Option MeanTable := calcPoisson { M with mu := x }
/-- zero_truncated_poisson_dist.hpp:59-69 `calc_probabilities`. -/
def calcZTPoisson (M : MeanTable) : Option MeanTable := (ZTPoisson.table M.mu).map fun P => { M with P := P }
/-- zero_truncated_poisson_dist.hpp:78, the constructor. -/
def constructZTPoisson (mu : XR) : Option MeanTable := calcZTPoisson { mu := mu, P := [] }
/-- zero_truncated_poisson_dist.hpp:73-76 `mu(mu_new)`; line 117 forwards to it. -/
def setMuZTPoisson (M : MeanTable) (x : XR) : Option MeanTable := calcZTPoisson { M with mu := x }
/-- poisson_dist.hpp:55-79, 128-130: the class, with the getter of line 71. -/
def poisson : ParamClass where
  Args := XR
  State := MeanTable
  Setter := XR
  construct := constructPoisson
  default := default
  get P := P.mu
  set x P := P.setMuPoisson x
  eq := eq
  assign := Spec.assign1
  comparable a := a ≠ nan
/-- zero_truncated_poisson_dist.hpp:54-80, 135-138: the class, with the getter of line 72. -/
def zeroTruncatedPoisson : ParamClass where
  Args := XR
  State := MeanTable
  Setter := XR
  construct := constructZTPoisson
  default := default
  get P := P.mu
  set x P := P.setMuZTPoisson x
  eq := eq
  assign := Spec.assign1
  comparable a := a ≠ nan
end MeanTable

/-- negative_binomial_dist.hpp:59-61, the members of `param_type`. -/
structure NegativeBinomial where
  p : XR
  r : XR
  P : List XR

namespace NegativeBinomial
/-- negative_binomial_dist.hpp:59-61, 105 `param_type()`. -/
def default : NegativeBinomial := { p := 0, r := 0, P := [] }
/-- negative_binomial_dist.hpp:82-92 `calc_probabilities`. -/
def recalc (N : NegativeBinomial) : Option NegativeBinomial := (NegBinomial.table N.p N.r).map fun P => { N with P := P }
/-- negative_binomial_dist.hpp:106, the constructor. -/
def construct (p r : XR) : Option NegativeBinomial := recalc { p := p, r := r, P := [] }
/-- negative_binomial_dist.hpp:96-99 `p(p_new)`; line 145 forwards to it. -/
def setP (N : NegativeBinomial) (x : XR) : Option NegativeBinomial := recalc { N with p := x }
/-- negative_binomial_dist.hpp:101-104 `r(r_new)`; line 147 forwards to it. -/
def setR (N : NegativeBinomial) (x : XR) : Option NegativeBinomial := recalc { N with r := x }
/-- negative_binomial_dist.hpp:157-160 `operator==`. -/
def eq (P Q : NegativeBinomial) : Prop := XR.eq P.p Q.p ∧ XR.eq P.r Q.r
/-- The class, with the getters of lines 95, 100. -/
def cls : ParamClass where
  Args := XR × XR
  State := NegativeBinomial
  Setter := XR ⊕ XR
  construct a := construct a.1 a.2
  default := default
  get P := (P.p, P.r)
  set s P := match s with
    | .inl x => P.setP x
    | .inr x => P.setR x
  eq := eq
  assign := Spec.assign2
  comparable a := a.1 ≠ nan ∧ a.2 ≠ nan
end NegativeBinomial

/-- bernoulli_dist.hpp:76-77, the members of `param_type`. -/
structure Bernoulli (T : Type) where
  p : XR
  head : T
  tail : T

namespace Bernoulli
/-- bernoulli_dist.hpp:76-77, 54-73, 92 `param_type()` for a number type `T`: the values are 0 and 1. -/
def default (zero one : T) : Bernoulli T := { p := 1 / 2, head := zero, tail := one }
/-- bernoulli_dist.hpp:99-100, the constructor with all values. -/
def construct (p : XR) (head tail : T) : Bernoulli T := { p := p, head := head, tail := tail }
/-- bernoulli_dist.hpp:94-97, the constructor with the probability only, for a number type `T`. -/
def ofProbability (zero one : T) (p : XR) : Bernoulli T := { default zero one with p := p }
/-- bernoulli_dist.hpp:83 `p(p_new)`; line 185 forwards to it. -/
def setP (P : Bernoulli T) (x : XR) : Bernoulli T := { P with p := x }
/-- bernoulli_dist.hpp:87 `head(head_new)`; line 189 forwards to it. -/
def setHead (P : Bernoulli T) (x : T) : Bernoulli T := { P with head := x }
/-- bernoulli_dist.hpp:91 `tail(tail_new)`; line 193 forwards to it. -/
def setTail (P : Bernoulli T) (x : T) : Bernoulli T := { P with tail := x }
/-- bernoulli_dist.hpp:105-108 `operator==`; `==` of `T` is taken to be equality. -/
def eq (P Q : Bernoulli T) : Prop := XR.eq P.p Q.p ∧ P.head = Q.head ∧ P.tail = Q.tail
/-- The class, with the getters of lines 81, 85, 89. -/
def cls (T : Type) (zero one : T) : ParamClass where
  Args := XR × T × T
  State := Bernoulli T
  Setter := XR ⊕ T ⊕ T
  construct a := some (construct a.1 a.2.1 a.2.2)
  default := default zero one
  get P := (P.p, P.head, P.tail)
  set s P := match s with
    | .inl x => some (P.setP x)
    | .inr (.inl x) => some (P.setHead x)
    | .inr (.inr x) => some (P.setTail x)
  eq := eq
  assign := Spec.assign3
  comparable a := a.1 ≠ nan
end Bernoulli

/-! ### All classes -/

/-- The distributions whose parameters are set one by one.  `L` are the limits of the number type (used by beta_dist), `T` the
type of the values of bernoulli_dist. -/
inductive Kind
  | exponential
  | twosidedExponential
  | normal
  | lognormal
  | tent
  | pareto
  | powerlaw
  | weibull
  | logistic
  | extremeValue
  | cauchy
  | rayleigh
  | maxwell
  | gamma
  | chiSquare
  | studentT
  | snedecorF
  | uniform
  | uniformInt
  | truncatedNormal
  | beta (L : Limits)
  | geometric
  | binomial
  | hypergeometric
  | poisson
  | zeroTruncatedPoisson
  | negativeBinomial
  | bernoulli (T : Type) (zero one : T)

/-- The parameter class of a distribution. -/
def Kind.cls : Kind → ParamClass
  | .exponential => Exponential.cls
  | .twosidedExponential => TwosidedExponential.cls
  | .normal => Normal.cls
  | .lognormal => Lognormal.cls
  | .tent => Tent.cls
  | .pareto => Pareto.cls
  | .powerlaw => Powerlaw.cls
  | .weibull => Weibull.cls
  | .logistic => Logistic.cls
  | .extremeValue => ExtremeValue.cls
  | .cauchy => Cauchy.cls
  | .rayleigh => Rayleigh.cls
  | .maxwell => Maxwell.cls
  | .gamma => Gamma.cls
  | .chiSquare => ChiSquare.cls
  | .studentT => StudentT.cls
  | .snedecorF => SnedecorF.cls
  | .uniform => UniformReal.cls
  | .uniformInt => UniformInt.cls
  | .truncatedNormal => TruncatedNormal.cls
  | .beta L => Beta.cls L
  | .geometric => GeometricParam.cls
  | .binomial => BinomialParam.cls
  | .hypergeometric => HypergeometricParam.cls
  | .poisson => MeanTable.poisson
  | .zeroTruncatedPoisson => MeanTable.zeroTruncatedPoisson
  | .negativeBinomial => NegativeBinomial.cls
  | .bernoulli T zero one => Bernoulli.cls T zero one

/-! ### discrete_dist, fast_discrete_dist and correlated_normal_dist: `operator==` -/

/-- discrete_dist.hpp:178-181 `operator==`: `==` of the vectors of all nodes, for numbers among which there is no NaN. -/
def discreteEq {α : Type} (P Q : Discrete.WTree α) : Prop := P.P = Q.P

/-- fast_discrete_dist.hpp:158-161 `operator==`. -/
def fastDiscreteEq {α : Type} (P Q : Discrete.Alias α) : Prop := P.P = Q.P

/-- `operator==` of `std::vector`. -/
def vecEq : List XR → List XR → Prop
  | [], [] => True
  | x :: l, y :: m => XR.eq x y ∧ vecEq l m
  | _, _ => False

/-- correlated_normal_dist.hpp:105-108 `operator==` of parameter objects. -/
def correlatedParamEq (P Q : Correlated.Param) : Prop := vecEq P.H Q.H

/-- correlated_normal_dist.hpp:187-191 `operator==` of distributions. -/
def correlatedEq (D E : Correlated.Dist) : Prop := correlatedParamEq D.P E.P

end
end Trng.DistObjects
