import Verif.Model.PeriodLaw
import Verif.Model.Discrete
import Verif.Model.RoundedDiscrete

/-! Sampling a discrete distribution from an engine: the functions of trng/uniformxx.hpp (Model/Uniform.lean) put together with the sampling
functions of a deviate (Model/RoundedDiscrete.lean).  uniform_int_dist, bernoulli_dist, discrete_dist and `operator()(long)` of the engines are
in Model/Uniform.lean and Model/Discrete.lean. -/
namespace Trng
noncomputable section
open XR Trng.Uniform FP

variable {σ : Type}

/-- geometric_dist.hpp:91-94 `operator()(r)`. -/
def geometricSample (M : Machine) (p : XR) (G : Gen σ) (s : σ) : Option ℤ × σ :=
  let u := uniformoo float64 G s
  (Rounded.geometricDraw M (Rounded.geometric M p) (fin (u.1 : ℝ)), u.2)

/-- binomial_dist.hpp:107-110 `operator()(r)`. -/
def binomialSample (M : Machine) (p : XR) (n : ℕ) (G : Gen σ) (s : σ) : Option ℤ × σ :=
  let u := uniformoo float64 G s
  ((Rounded.binomial M p n).draw (fin (u.1 : ℝ)), u.2)

/-- hypergeometric_dist.hpp:109-113 `operator()(r)`. -/
def hypergeometricSample (M : Machine) (n m d : ℤ) (G : Gen σ) (s : σ) : Option ℤ × σ :=
  let u := uniformoo float64 G s
  ((Rounded.hypergeometric M n m d).draw (fin (u.1 : ℝ)), u.2)

end
end Trng
