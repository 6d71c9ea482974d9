import Verif.Model.Rounded

/-! What is assumed of floating-point arithmetic and of the C library, and what the distributions have to do in it. -/
namespace Trng.Spec
open XR

/-- A rounding: it never gives NaN and never reverses an order, the small constants of the code are numbers of the type, and so
is the negative of a number of the type.  Every rounding mode of IEEE 754 is such. -/
structure Rounding (rnd : ℝ → XR) : Prop where
  mono : ∀ x y : ℝ, x ≤ y → rnd x ≤ rnd y
  zero : rnd 0 = fin 0
  half : rnd (1 / 2) = fin (1 / 2)
  one : rnd 1 = fin 1
  two : rnd 2 = fin 2
  neg : ∀ x : ℝ, rnd x = fin x → rnd (-x) = fin (-x)

/-- A usable C library: where the true function is monotone the computed one does not reverse an order (in particular it does
not give NaN there), and it is exact where the value is 0 or ±1 for a simple reason.  How far the values are from the true ones
elsewhere does not matter. -/
structure Library (M : Machine) : Prop where
  exp_mono : ∀ x y, x ≤ y → M.exp x ≤ M.exp y
  exp_zero : M.exp (fin 0) = fin 1
  exp_ninf : M.exp ninf = fin 0
  expm1_mono : ∀ x y, x ≤ y → M.expm1 x ≤ M.expm1 y
  expm1_zero : M.expm1 (fin 0) = fin 0
  expm1_ninf : M.expm1 ninf = fin (-1)
  ln_mono : ∀ x y, fin 0 ≤ x → x ≤ y → M.ln x ≤ M.ln y
  ln_one : M.ln (fin 1) = fin 0
  ln1p_mono : ∀ x y, fin (-1) ≤ x → x ≤ y → M.ln1p x ≤ M.ln1p y
  ln1p_zero : M.ln1p (fin 0) = fin 0
  sqrt_mono : ∀ x y, fin 0 ≤ x → x ≤ y → M.sqrt x ≤ M.sqrt y
  sqrt_zero : M.sqrt (fin 0) = fin 0
  sqrt_one : M.sqrt (fin 1) = fin 1
  pow_mono : ∀ x y e, fin 0 ≤ e → fin 0 ≤ x → x ≤ y → M.pow x e ≤ M.pow y e
  pow_anti : ∀ x y e, e ≤ fin 0 → fin 0 ≤ x → x ≤ y → M.pow y e ≤ M.pow x e
  pow_one : ∀ e, (fin 0 ≤ e ∨ e ≤ fin 0) → M.pow (fin 1) e = fin 1
  pow_nonneg : ∀ x e, (fin 0 ≤ e ∨ e ≤ fin 0) → fin 0 ≤ x → fin 0 ≤ M.pow x e
  trig : ∀ x : ℝ, ∃ s c : ℝ, M.sin (fin x) = fin s ∧ M.cos (fin x) = fin c ∧ |c| ≤ 1 ∧ (s = 0 → |c| = 1)
  atan_mono : ∀ x y, x ≤ y → M.atan x ≤ M.atan y
  erf_mono : ∀ x y, x ≤ y → M.erf x ≤ M.erf y
  erf_ends : M.erf ninf = fin (-1) ∧ M.erf pinf = fin 1
  erfc_anti : ∀ x y, x ≤ y → M.erfc y ≤ M.erfc x
  erfc_ends : M.erfc ninf = fin 2 ∧ M.erfc pinf = fin 0

/-- A library whose sine and cosine have the signs of the true functions from 0 to `p` and do not reverse an order where these are
monotone. -/
structure TrigMono (M : Machine) (p : ℝ) : Prop where
  sin_up : ∀ x y : ℝ, 0 ≤ x → x ≤ y → y ≤ Real.pi / 2 → M.sin (fin x) ≤ M.sin (fin y)
  sin_down : ∀ x y : ℝ, Real.pi / 2 ≤ x → x ≤ y → y ≤ p → M.sin (fin y) ≤ M.sin (fin x)
  sin_sign : ∀ x : ℝ, 0 ≤ x → x ≤ p → fin 0 ≤ M.sin (fin x)
  cos_down : ∀ x y : ℝ, 0 ≤ x → x ≤ y → y ≤ p → M.cos (fin y) ≤ M.cos (fin x)
  cos_pos : ∀ x : ℝ, 0 ≤ x → x ≤ Real.pi / 2 → fin 0 ≤ M.cos (fin x)
  cos_neg : ∀ x : ℝ, Real.pi / 2 ≤ x → x ≤ p → M.cos (fin x) ≤ fin 0

/-- Floating-point arithmetic with a usable library. -/
structure Sound (M : Machine) : Prop where
  rounding : Rounding M.rnd
  library : Library M

/-- C96: for every deviate that is a floating-point number from the interval of deviates of the distribution, the sample is not
NaN and lies between `min` and `max` (a comparison with NaN is false). -/
def SamplesInRange (M : Machine) (D : ContDist) : Prop :=
  ∀ u ∈ D.deviate, M.Rep u → D.min ≤ D.draw (fin u) ∧ D.draw (fin u) ≤ D.max

/-- C96: a larger deviate never gives a smaller sample. -/
def SamplesIncrease (M : Machine) (D : ContDist) : Prop :=
  ∀ u ∈ D.deviate, ∀ v ∈ D.deviate, M.Rep u → M.Rep v → u ≤ v → D.draw (fin u) ≤ D.draw (fin v)

/-- C96: a larger deviate never gives a larger sample. -/
def SamplesDecrease (M : Machine) (D : ContDist) : Prop :=
  ∀ u ∈ D.deviate, ∀ v ∈ D.deviate, M.Rep u → M.Rep v → u ≤ v → D.draw (fin v) ≤ D.draw (fin u)

/-- C96: `icdf` of a number in (0,1) lies between `min` and `max`, and does not decrease. -/
def IcdfInRange (M : Machine) (D : ContDist) : Prop :=
  (∀ x, 0 < x → x < 1 → M.Rep x → D.min ≤ D.icdf (fin x) ∧ D.icdf (fin x) ≤ D.max) ∧
  (∀ x y, 0 < x → x ≤ y → y < 1 → M.Rep x → M.Rep y → D.icdf (fin x) ≤ D.icdf (fin y))

/-- The values a variable of the floating-point type can have, except NaN. -/
def Value (M : Machine) (x : XR) : Prop := x = ninf ∨ x = pinf ∨ ∃ r, x = fin r ∧ M.Rep r

/-- C97: the values of `F` are probabilities (in particular not NaN). -/
def CdfInRange (M : Machine) (F : XR → XR) : Prop := ∀ x, Value M x → 0 ≤ F x ∧ F x ≤ 1

/-- C97: `F` does not decrease. -/
def CdfIncreases (M : Machine) (F : XR → XR) : Prop := ∀ x y, Value M x → Value M y → x ≤ y → F x ≤ F y

/-- C97: the values of `f` are not negative (in particular not NaN). -/
def PdfNonneg (M : Machine) (f : XR → XR) : Prop := ∀ x, Value M x → 0 ≤ f x

end Trng.Spec
