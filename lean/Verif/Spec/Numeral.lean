/-
Independent specification of positional numerals.
-/
namespace Trng.Spec

/-- the radix of octal, decimal, hexadecimal digits: value of a digit character in base `b` -/
def digitVal (c : Char) : Nat :=
  if 48 ≤ c.toNat ∧ c.toNat ≤ 57 then c.toNat - 48
  else if 97 ≤ c.toNat ∧ c.toNat ≤ 102 then c.toNat - 87
  else if 65 ≤ c.toNat ∧ c.toNat ≤ 70 then c.toNat - 55
  else 16

/-- `c` is a digit in base `b ≤ 16` -/
def IsDigit (b : Nat) (c : Char) : Prop := digitVal c < b

instance (b : Nat) (c : Char) : Decidable (IsDigit b c) := inferInstanceAs (Decidable (_ < _))

/-- value of a string of digits, most significant digit first -/
def numeral (b : Nat) (cs : List Char) : Nat := cs.foldl (fun v c => v * b + digitVal c) 0

/-- the string does not begin with a digit in base `b` -/
def EndsNumeral (b : Nat) (rest : List Char) : Prop := ∀ c ∈ rest.head?, ¬ IsDigit b c

end Trng.Spec
