import Verif.Model.Float

/-! What it means to round to nearest. -/
namespace Trng.FP

/-- The numbers a binary floating-point type with `p` digits can hold (exponent range ignored). -/
def Rep (p : Nat) (y : ℚ) : Prop := ∃ k e : ℤ, |k| < 2 ^ p ∧ y = k * 2 ^ e

/-- `rnd` rounds to nearest; nothing is assumed about ties. -/
def Nearest (F : Fmt) : Prop := ∀ x, Rep F.p (F.rnd x) ∧ ∀ y, Rep F.p y → |F.rnd x - x| ≤ |y - x|

end Trng.FP
