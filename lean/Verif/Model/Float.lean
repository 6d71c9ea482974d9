import Mathlib.Data.Int.Log
import Mathlib.Data.Rat.Floor

/-! Binary floating-point arithmetic on rational numbers.

The uniform deviates of `trng/uniformxx.hpp` and the functions built on them are computed in
`float`, `double` or `long double`. The model represents finite floating-point values by the rational
numbers they stand for and every floating-point operation by the exact operation followed by a
rounding. Simplification: the exponent range is unbounded (no overflow, no subnormal numbers), and
operations are not contracted. All values occurring in `uniformxx.hpp` are 0 or between 2^-130 and
2^65 in absolute value, which is inside the normal range of all three types. -/
namespace Trng.FP

/-- A floating-point type: the number of binary digits (`numeric_limits<T>::digits`) and the rounding. -/
structure Fmt where
  p : Nat
  rnd : ℚ → ℚ

/-- Nearest integer, ties to even. -/
def rneInt (q : ℚ) : ℤ :=
  if q - ⌊q⌋ < 1 / 2 then ⌊q⌋
  else if 1 / 2 < q - ⌊q⌋ then ⌊q⌋ + 1
  else if ⌊q⌋ % 2 = 0 then ⌊q⌋ else ⌊q⌋ + 1

/-- Rounding of a positive number to `p` binary digits. -/
def rnePos (p : Nat) (x : ℚ) : ℚ :=
  rneInt (x / 2 ^ (Int.log 2 x + 1 - p)) * 2 ^ (Int.log 2 x + 1 - p)

/-- IEEE 754 rounding to nearest, ties to even, with `p` binary digits and unbounded exponent. -/
def rne (p : Nat) (x : ℚ) : ℚ :=
  if x = 0 then 0 else if 0 < x then rnePos p x else -rnePos p (-x)

/-- `float`, `double`, `long double` (x86 extended precision). -/
def float32 : Fmt := ⟨24, rne 24⟩
@[inherit_doc float32] def float64 : Fmt := ⟨53, rne 53⟩
@[inherit_doc float32] def float80 : Fmt := ⟨64, rne 64⟩

/-- C++ conversion of a floating-point value to an integer type with values in `[lo, hi]`: truncation
toward zero, undefined if the truncated value does not fit. -/
def toInteger (lo hi : ℤ) (q : ℚ) : Option ℤ :=
  let t := if 0 ≤ q then ⌊q⌋ else ⌈q⌉
  if lo ≤ t ∧ t ≤ hi then some t else none

end Trng.FP
