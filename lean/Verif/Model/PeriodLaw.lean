import Verif.Model.Uniform
import Verif.Model.Continuous
import Verif.Model.RoundedInverse
import Verif.Model.LCG64
import Verif.Model.LCG64CountShift
import Verif.Model.Count128
import Verif.Model.Xoshiro

/-! Sampling a continuous distribution of type `double` from an engine: the functions of trng/uniformxx.hpp (Model/Uniform.lean) put
together with the sampling functions of a deviate (Model/Rounded.lean). -/
namespace Trng
noncomputable section
open XR Trng.Uniform FP

variable {σ : Type}

/-- `operator()(R &r)` of the distributions that draw from `uniformoo<double>(r)`: normal_dist.hpp:130, lognormal_dist.hpp:129,
twosided_exponential_dist.hpp:124, logistic_dist.hpp:133, extreme_value_dist.hpp:127, rayleigh_dist.hpp:123, cauchy_dist.hpp:135,
pareto_dist.hpp:129.  The result and the engine afterwards. -/
def sampleOO (D : ContDist) (G : Gen σ) (s : σ) : XR × σ :=
  let u := uniformoo float64 G s
  (D.draw (fin (u.1 : ℝ)), u.2)

/-- `operator()(R &r)` of the distributions that draw from `uniformoc<double>(r)`: exponential_dist.hpp:123, powerlaw_dist.hpp:129,
weibull_dist.hpp:128. -/
def sampleOC (D : ContDist) (G : Gen σ) (s : σ) : XR × σ :=
  let u := uniformoc float64 G s
  (D.draw (fin (u.1 : ℝ)), u.2)

/-- `operator()(R &r)` of tent_dist, which draws from `uniformcc<double>(r)`: tent_dist.hpp:133. -/
def sampleCC (D : ContDist) (G : Gen σ) (s : σ) : XR × σ :=
  let u := uniformcc float64 G s
  (D.draw (fin (u.1 : ℝ)), u.2)

/-- `operator()(R &r)` of the distributions that draw from `uniformco<double>(r)`: uniform01_dist.hpp:103-106, uniform_dist.hpp:133-136. -/
def sampleCO (D : ContDist) (G : Gen σ) (s : σ) : XR × σ :=
  let u := uniformco float64 G s
  (D.draw (fin (u.1 : ℝ)), u.2)

namespace Rounded
open Classical

/-- uniform_dist.hpp:133-184 in floating-point arithmetic, with the parameters `a`, `b` and `d = b - a` as the constructor (76-78) and the setters
(62-73) leave them. -/
def uniform (M : Machine) (a b : XR) : ContDist where
  draw u := M.add (M.mul (M.sub b a) u) a
  deviate := Set.Ico 0 1
  min := a
  max := b
  pdf x := if x < a ∨ b ≤ x then 0 else M.div 1 (M.sub b a)
  cdf x := if x < a then 0 else if b ≤ x then 1 else M.div (M.sub x a) (M.sub b a)
  icdf x := if x < 0 ∨ 1 < x then nan else M.add (M.mul x (M.sub b a)) a

/-- lognormal_dist.hpp:172-184 `icdf`; `inv` is `inv_Phi`. -/
def lognormalIcdf (M : Machine) (inv : XR → XR) (mu sigma x : XR) : XR :=
  if x < 0 ∨ 1 < x then nan
  else if eq x 0 then 0
  else if eq x 1 then pinf
  else M.exp (M.add (M.mul (inv x) sigma) mu)

/-- lognormal_dist.hpp:128-184 in floating-point arithmetic; `c` is the constant `one_over_sqrt_2`, `d` is `one_over_sqrt_2pi`. -/
def lognormal (M : Machine) (inv : XR → XR) (c d : ℝ) (mu sigma : XR) : ContDist where
  draw u := lognormalIcdf M inv mu sigma u
  deviate := Set.Ioo 0 1
  min := 0
  max := pinf
  pdf x :=
    if x ≤ 0 then 0
    else
      let t := M.div (M.sub (M.ln x) mu) sigma
      M.mul (M.div (fin d) (M.mul x sigma)) (M.exp (M.div (M.mul (-t) t) 2))
  cdf x := lognormalCdf M c mu sigma x
  icdf x := lognormalIcdf M inv mu sigma x

end Rounded

/-- An engine with results of 64 bits, `min()` 0 and `max()` 2^64 - 1, as uniformxx.hpp sees it. -/
def gen64 (call : σ → BitVec 64 × σ) : Gen σ := ⟨fun s => ((call s).1.toNat, (call s).2), 0, 2 ^ 64 - 1⟩

/-- An engine with objects in a set `P` that calls do not leave: the value `val` of a result, `min()` and `max()`. -/
def subGen {α β : Type} (call : α → β × α) (val : β → ℕ) (P : α → Prop) (h : ∀ e, P e → P (call e).2) (lo hi : ℕ) : Gen {e // P e} :=
  ⟨fun s => (val (call s.1).1, ⟨(call s.1).2, h s.1 s.2⟩), lo, hi⟩

end
end Trng
