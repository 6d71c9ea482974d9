import Mathlib.Data.ZMod.Basic
import Mathlib.Data.Nat.ModEq
import Mathlib.Tactic.Ring
/- Fast modular exponentiation for kernel computations. -/
namespace Trng

/-- `acc * a^n mod m` by repeated squaring -/
def powModAux (m : Nat) : (fuel : Nat) → (a n acc : Nat) → Nat
  | 0, _, _, acc => acc % m
  | fuel + 1, a, n, acc =>
    if n = 0 then acc % m
    else powModAux m fuel (a * a % m) (n / 2) (if n % 2 = 1 then acc * a % m else acc)

def powMod (m a n : Nat) : Nat := powModAux m (n.log2 + 1) a n 1

theorem powModAux_eq (m fuel a n acc : Nat) (h : n < 2 ^ fuel) :
    powModAux m fuel a n acc = acc * a ^ n % m := by
  induction fuel generalizing a n acc with
  | zero =>
    have : n = 0 := by simpa using h
    subst this; simp [powModAux]
  | succ fuel ih =>
    rw [powModAux]
    by_cases h0 : n = 0
    · subst h0; simp
    rw [if_neg h0, ih _ _ _ (by omega)]
    have e : a ^ n = (a * a) ^ (n / 2) * a ^ (n % 2) := by
      rw [← pow_two, ← pow_mul, ← pow_add, Nat.div_add_mod]
    have h2 : (a * a % m) ^ (n / 2) ≡ (a * a) ^ (n / 2) [MOD m] := (Nat.mod_modEq _ _).pow _
    rw [e]
    rcases Nat.mod_two_eq_zero_or_one n with h1 | h1
    · rw [if_neg (by omega), h1, pow_zero, mul_one]
      exact h2.mul_left _
    · rw [if_pos h1, h1, pow_one]
      refine (Nat.ModEq.mul (Nat.mod_modEq _ _) h2).trans ?_
      rw [mul_assoc, mul_comm a]

theorem powMod_eq (m a n : Nat) : powMod m a n = a ^ n % m := by
  rw [powMod, powModAux_eq _ _ _ _ _ Nat.lt_log2_self, one_mul]

theorem zmod_pow_eq (m a n b : Nat) (h : powMod m a n = b % m) : (a : ZMod m) ^ n = b := by
  rw [← Nat.cast_pow, ZMod.natCast_eq_natCast_iff, Nat.ModEq, ← powMod_eq, h]

theorem zmod_pow_ne (m a n b : Nat) (h : powMod m a n ≠ b % m) : (a : ZMod m) ^ n ≠ b := by
  rw [← Nat.cast_pow, Ne, ZMod.natCast_eq_natCast_iff, Nat.ModEq, ← powMod_eq]; exact h

end Trng
