import Verif.Model.RoundedInverse
import Verif.Spec.Normal

/-! What is assumed of the arithmetic of `double` and of the C library for C100. -/
namespace Trng.Spec
open XR

/-- `y` is a number with the relative error `d` from `v`, or nearly so if the result is subnormal. -/
def Close (d : ℝ) (y : XR) (v : ℝ) : Prop := ∃ r : ℝ, y = fin r ∧ |r - v| ≤ d * |v| + 2 ^ (-1074 : ℤ)

/-- The arithmetic of `double` and a C library with relative errors of at most `d`.  The exponential function overflows from 710
on: its value is larger than every `double` there.  The bounds 1e300 exclude real numbers that are no values of a `double`. -/
structure DoubleWithin (M : Machine) (d : ℝ) : Prop where
  rnd : M.rnd = ieee 53 (-1074) 1024
  exp : ∀ x : ℝ, x ≤ 709 → Close d (M.exp (fin x)) (Real.exp x)
  exp_over : ∀ x : ℝ, 710 ≤ x → M.exp (fin x) = pinf
  ln : ∀ x : ℝ, 0 < x → |Real.log x| ≤ 1e300 → Close d (M.ln (fin x)) (Real.log x)
  ln1p : ∀ x : ℝ, -1 < x → |Real.log (1 + x)| ≤ 1e300 → Close d (M.ln1p (fin x)) (Real.log (1 + x))
  sqrt : ∀ x : ℝ, 0 ≤ x → x ≤ 1e300 → Close d (M.sqrt (fin x)) (Real.sqrt x)
  erf : ∀ x : ℝ, Close d (M.erf (fin x)) (erfR x)
  erfc : ∀ x : ℝ, Close d (M.erfc (fin x)) (1 - erfR x)

end Trng.Spec
