import Verif.Spec.Stream

/-! Specification of the files of Dieharder (generator 202, "file_input"): a header with the number of values and the number of bits of
each, then one value per line; lines that begin with `#` are comments. -/
namespace Trng.DieharderSpec
open Spec StreamSpec

/-- `t` is the number `n` in decimal digits. -/
def Decimal (n : Nat) (t : List Char) : Prop := t ≠ [] ∧ (∀ c ∈ t, IsDigit 10 c) ∧ numeral 10 t = n

/-- Lines with their ends. -/
def unlines (ls : List (List Char)) : List Char := ls.flatMap fun l => l ++ ['\n']

/-- The comment line that separates. -/
def rule : List Char := "#==================================================================".toList

/-- `t` is a file with `count` values `x 0`, `x 1`, ..., each of `bits` bits; name of the engine and seed in the comment. -/
def FileText (name : List Char) (seed count bits : Nat) (x : Nat → Nat) (t : List Char) : Prop :=
  ∃ s c b ls, Decimal seed s ∧ Decimal count c ∧ Decimal bits b ∧ ls.length = count ∧ (∀ k, ∀ h : k < ls.length, Decimal (x k) ls[k]) ∧
    t = unlines ([rule, "# generator ".toList ++ name ++ "  seed = ".toList ++ s, rule, "type: d".toList, "count: ".toList ++ c,
      "numbit: ".toList ++ b] ++ ls)

/-- `t` is an argument that stands for the number `v` (modulo 2^64, after a minus sign): white space, sign, digits. -/
def Argument (t : List Char) (v : BitVec 64) : Prop :=
  ∃ white u, t = white ++ u ∧ (∀ c ∈ white, White c) ∧ Field.Text (.unsigned 64 v) u

end Trng.DieharderSpec
