import Verif.Proofs.UInt128Text
/-
C44: text round trip and overflow detection of 128-bit integers.
`U128Text.Terminates b rest`: what follows the number does not continue it (it does not begin with
a digit of base `b`, nor, for hexadecimal, with x or X).
-/
namespace Trng
open U128Text Spec

/-- Printing without padding and reading with the same base gives the value back, for every base,
with or without showbase, upper or lower case; exactly the printed characters are consumed. -/
theorem C44_print_read (b : Base) (showbase upper : Bool) (fill : Char) (adj : Adjust)
    (v : BitVec 128) (rest : List Char) (hr : Terminates b rest) :
    read b (print b showbase upper 0 fill adj v ++ rest) = some (v, rest) := by
  have := read_base_digits b showbase upper v rest hr
  unfold print
  cases adj <;> simpa using this

/-- The same for right- and left-justified output padded with blanks to any width. -/
theorem C44_print_read_padded (b : Base) (showbase upper : Bool) (width : Nat)
    (v : BitVec 128) (rest : List Char) (hr : Terminates b rest) :
    read b (print b showbase upper width ' ' .right v ++ rest) = some (v, rest) ∧
    ∃ k, read b (print b showbase upper width ' ' .left v ++ rest) =
      some (v, List.replicate k ' ' ++ rest) := by
  constructor
  · simp only [print, List.append_assoc]
    rw [read_skip _ _ _ (by intro c hc; rw [List.eq_of_mem_replicate hc]; rfl)]
    simpa using read_base_digits b showbase upper v rest hr
  · refine ⟨width - (basePrefix b showbase upper).length - (digits b upper v).length, ?_⟩
    simp only [print, List.append_assoc]
    generalize width - (basePrefix b showbase upper).length - (digits b upper v).length = k
    have : Terminates b (List.replicate k ' ' ++ rest) := by
      cases k with
      | zero => simpa using hr
      | succ k =>
        rw [List.replicate_succ, List.cons_append]
        constructor
        · intro c hc
          simp only [List.head?_cons, Option.mem_def, Option.some.injEq] at hc
          subst hc
          cases b <;> decide
        · intro _ c hc
          simp only [List.head?_cons, Option.mem_def, Option.some.injEq] at hc
          subst hc
          decide
    simpa using read_base_digits b showbase upper v _ this

/-- Reading a non-empty string of digits gives its value if this is below 2^128, and otherwise
fails: nothing ever wraps around. -/
theorem C44_read_numeral (b : Base) (cs rest : List Char) (hne : cs ≠ [])
    (hcs : ∀ c ∈ cs, IsDigit (radix b) c) (hr : Terminates b rest) :
    read b (cs ++ rest) = if numeral (radix b) cs < 2 ^ 128
      then some (BitVec.ofNat 128 (numeral (radix b) cs), rest) else none :=
  read_numeral b cs rest hne hcs hr

/-- If, after white space, the input does not begin with a digit, reading fails. -/
theorem C44_read_no_digit (b : Base) (sp input : List Char) (h : ∀ c ∈ sp, isSpace c = true)
    (hi : ∀ c ∈ input.head?, isSpace c = false ∧ ¬ IsDigit (radix b) c) :
    read b (sp ++ input) = none := by
  rw [read_skip _ _ _ h]
  cases input with
  | nil => rfl
  | cons c cs =>
    obtain ⟨h1, h2⟩ := hi c (by simp)
    unfold U128Text.read
    rw [List.dropWhile_cons_of_neg (by simp [h1])]
    cases b with
    | oct => simp only; rw [if_neg (by rw [isOctDigit_iff]; exact h2)]
    | dec => simp only; rw [if_neg (by rw [isDecDigit_iff]; exact h2)]
    | hex => simp only; rw [if_neg (by rw [isHexDigit_iff]; exact h2)]

/-- The decimal text has the right value in the sense of the independent numeral specification. -/
theorem C44_print_numeral (b : Base) (upper : Bool) (fill : Char) (adj : Adjust) (v : BitVec 128) :
    let text := print b false upper 0 fill adj v
    (∀ c ∈ text, IsDigit (radix b) c) ∧ text ≠ [] ∧ numeral (radix b) text = v.toNat := by
  obtain ⟨h1, h2, h3⟩ := digits_spec b upper v
  have : print b false upper 0 fill adj v = digits b upper v := by
    unfold print; cases adj <;> simp [basePrefix]
  simp only [this]
  exact ⟨h1, h3, h2⟩

example : Terminates .hex " )".toList := ⟨by intro c hc; simp at hc; subst hc; decide,
  fun _ c hc => by simp at hc; subst hc; decide⟩
example : print .dec false false 0 ' ' .left 340282366920938463463374607431768211455#128 =
    "340282366920938463463374607431768211455".toList := by decide +kernel
example : read .dec "340282366920938463463374607431768211456)".toList = none := by decide +kernel

end Trng
