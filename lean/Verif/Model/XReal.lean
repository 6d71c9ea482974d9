import Mathlib.Analysis.SpecialFunctions.Pow.Real
import Mathlib.Analysis.SpecialFunctions.Trigonometric.Arctan
import Mathlib.Analysis.SpecialFunctions.Gamma.Basic

/-! The number type of the distributions: the real numbers with the special values of IEEE 754.

Finite values are exact reals: no operation rounds, overflows or underflows.  Infinities and NaN are as in IEEE 754
and in the C library, with one simplification: there is only one zero, and dividing a non-zero number by it gives the
infinity with the sign of the dividend (as with `+0`).  The functions below are the library functions that trng/math.hpp
takes from `std` (math.hpp:53-55, 75-78, 122-181); `errno` is not part of the state. -/
namespace Trng

/-- A floating-point number with exact finite values. -/
inductive XR
  | nan
  | ninf
  | fin (x : ℝ)
  | pinf

namespace XR
noncomputable section
open Classical

instance (n : Nat) : OfNat XR n := ⟨fin n⟩

/-- Comparisons; a comparison with NaN is false. -/
def lt : XR → XR → Prop
  | fin x, fin y => x < y
  | ninf, fin _ => True
  | ninf, pinf => True
  | fin _, pinf => True
  | _, _ => False
def le : XR → XR → Prop
  | fin x, fin y => x ≤ y
  | ninf, fin _ => True
  | ninf, ninf => True
  | ninf, pinf => True
  | fin _, pinf => True
  | pinf, pinf => True
  | _, _ => False
instance : LT XR := ⟨lt⟩
instance : LE XR := ⟨le⟩
instance : DecidableLT XR := fun _ _ => Classical.propDecidable _
instance : DecidableLE XR := fun _ _ => Classical.propDecidable _

/-- The comparison `==`. -/
def eq : XR → XR → Prop
  | fin x, fin y => x = y
  | ninf, ninf => True
  | pinf, pinf => True
  | _, _ => False

def neg : XR → XR
  | nan => nan
  | ninf => pinf
  | fin x => fin (-x)
  | pinf => ninf
instance : Neg XR := ⟨neg⟩

def add : XR → XR → XR
  | fin x, fin y => fin (x + y)
  | fin _, pinf => pinf
  | fin _, ninf => ninf
  | pinf, fin _ => pinf
  | pinf, pinf => pinf
  | ninf, fin _ => ninf
  | ninf, ninf => ninf
  | _, _ => nan
instance : Add XR := ⟨add⟩
instance : Sub XR := ⟨fun x y => add x (neg y)⟩

/-- The infinity with the sign of `s`; NaN for `s = 0`. -/
def infSign (s : ℝ) : XR := if 0 < s then pinf else if s < 0 then ninf else nan

def mul : XR → XR → XR
  | fin x, fin y => fin (x * y)
  | fin x, pinf => infSign x
  | fin x, ninf => infSign (-x)
  | pinf, fin y => infSign y
  | ninf, fin y => infSign (-y)
  | pinf, pinf => pinf
  | ninf, ninf => pinf
  | pinf, ninf => ninf
  | ninf, pinf => ninf
  | _, _ => nan
instance : Mul XR := ⟨mul⟩

def div : XR → XR → XR
  | fin x, fin y => if y = 0 then infSign x else fin (x / y)
  | fin _, pinf => fin 0
  | fin _, ninf => fin 0
  | pinf, fin y => if y < 0 then ninf else pinf
  | ninf, fin y => if y < 0 then pinf else ninf
  | _, _ => nan
instance : Div XR := ⟨div⟩

def abs : XR → XR
  | nan => nan
  | fin x => fin |x|
  | _ => pinf

def exp : XR → XR
  | nan => nan
  | ninf => fin 0
  | fin x => fin (Real.exp x)
  | pinf => pinf

def expm1 : XR → XR
  | nan => nan
  | ninf => fin (-1)
  | fin x => fin (Real.exp x - 1)
  | pinf => pinf

/-- `std::log`; math.hpp:141-147 `ln`. -/
def ln : XR → XR
  | fin x => if 0 < x then fin (Real.log x) else if x = 0 then ninf else nan
  | pinf => pinf
  | _ => nan

/-- `std::log1p`; math.hpp:156-162 `ln1p`. -/
def ln1p (x : XR) : XR := ln (1 + x)

def sqrt : XR → XR
  | fin x => if x < 0 then nan else fin (Real.sqrt x)
  | pinf => pinf
  | _ => nan

/-- `std::pow`. -/
def pow : XR → XR → XR
  | fin x, fin y =>
    if y = 0 then fin 1
    else if 0 < x then fin (x ^ y)
    else if x = 0 then (if 0 < y then fin 0 else pinf)
    else if (⌊y⌋ : ℝ) = y then fin (x ^ ⌊y⌋) else nan
  | fin x, pinf => if |x| < 1 then fin 0 else if |x| = 1 then fin 1 else pinf
  | fin x, ninf => if |x| < 1 then pinf else if |x| = 1 then fin 1 else fin 0
  | pinf, fin y => if y = 0 then fin 1 else if 0 < y then pinf else fin 0
  | ninf, fin y =>
    if y = 0 then fin 1
    else if (⌊y⌋ : ℝ) = y ∧ ⌊y⌋ % 2 = 1 then (if 0 < y then ninf else fin 0) else if 0 < y then pinf else fin 0
  | pinf, pinf => pinf
  | ninf, pinf => pinf
  | pinf, ninf => fin 0
  | ninf, ninf => fin 0
  | nan, fin y => if y = 0 then fin 1 else nan
  | fin x, nan => if x = 1 then fin 1 else nan
  | _, _ => nan

def sin : XR → XR
  | fin x => fin (Real.sin x)
  | _ => nan
def cos : XR → XR
  | fin x => fin (Real.cos x)
  | _ => nan
def atan : XR → XR
  | nan => nan
  | ninf => fin (-(Real.pi / 2))
  | fin x => fin (Real.arctan x)
  | pinf => fin (Real.pi / 2)

/-- special_functions.hpp:98-112 `ln_Gamma`, i.e. `std::lgamma`: `ln |Γ(x)|`, infinite at the poles. -/
def lnGamma : XR → XR
  | nan => nan
  | fin x => if ∃ n : ℕ, x = -n then pinf else fin (Real.log |Real.Gamma x|)
  | _ => pinf

/-! ### The functions at finite arguments -/

@[simp] theorem ofNat_fin (n : Nat) : (OfNat.ofNat n : XR) = fin (n : ℝ) := rfl
@[simp] theorem fin_lt (x y : ℝ) : fin x < fin y ↔ x < y := Iff.rfl
@[simp] theorem fin_le (x y : ℝ) : fin x ≤ fin y ↔ x ≤ y := Iff.rfl
@[simp] theorem fin_eq (x y : ℝ) : eq (fin x) (fin y) ↔ x = y := Iff.rfl
@[simp] theorem neg_fin (x : ℝ) : -(fin x) = fin (-x) := rfl
@[simp] theorem fin_add (x y : ℝ) : fin x + fin y = fin (x + y) := rfl
@[simp] theorem fin_sub (x y : ℝ) : fin x - fin y = fin (x - y) := by
  show fin (x + -y) = _
  rw [sub_eq_add_neg]
@[simp] theorem fin_mul (x y : ℝ) : fin x * fin y = fin (x * y) := rfl
theorem fin_div' (x y : ℝ) : fin x / fin y = if y = 0 then infSign x else fin (x / y) := rfl
theorem fin_div {x y : ℝ} (h : y ≠ 0) : fin x / fin y = fin (x / y) := by rw [fin_div', if_neg h]
@[simp] theorem abs_fin (x : ℝ) : abs (fin x) = fin |x| := rfl
@[simp] theorem exp_fin (x : ℝ) : exp (fin x) = fin (Real.exp x) := rfl
@[simp] theorem expm1_fin (x : ℝ) : expm1 (fin x) = fin (Real.exp x - 1) := rfl
theorem ln_fin {x : ℝ} (h : 0 < x) : ln (fin x) = fin (Real.log x) := if_pos h
theorem ln1p_fin {x : ℝ} (h : 0 < 1 + x) : ln1p (fin x) = fin (Real.log (1 + x)) := by
  rw [ln1p, ofNat_fin, Nat.cast_one, fin_add, ln_fin h]
theorem sqrt_fin {x : ℝ} (h : 0 ≤ x) : sqrt (fin x) = fin (Real.sqrt x) := if_neg (not_lt.2 h)
theorem pow_fin {x y : ℝ} (h : 0 < x) : pow (fin x) (fin y) = fin (x ^ y) := by
  rw [pow]
  by_cases hy : y = 0
  · simp [hy]
  · rw [if_neg hy, if_pos h]
@[simp] theorem sin_fin (x : ℝ) : sin (fin x) = fin (Real.sin x) := rfl
@[simp] theorem cos_fin (x : ℝ) : cos (fin x) = fin (Real.cos x) := rfl
@[simp] theorem atan_fin (x : ℝ) : atan (fin x) = fin (Real.arctan x) := rfl

end
end XR
end Trng
