import Verif.Model.Stream
import Verif.Model.IntMath

/-! Model of examples/dieharder_file.cc, which writes the numbers of an engine to a file for the Dieharder tests. -/
namespace Trng.Dieharder
open Trng.Stream Trng.Stream.In IntMath

/-- What the program uses of an engine type `R`: `r.name()`, the default constructor, `r()` (`none`: undefined behaviour) and
`r.max()`; `r.min()` is 0 for all of them. -/
structure Prng where
  name : List Char
  σ : Type
  init : σ
  call : σ → Option ℤ × σ
  max : Nat

/-- A call with an unsigned result. -/
def ofBits {σ : Type} {w : Nat} (call : σ → BitVec w × σ) (r : σ) : Option ℤ × σ := (some ((call r).1.toNat : ℤ), (call r).2)

/-- `mrg2`, ..., `mrg5s`; mrg2.hpp:60-61 `min_`, `max_`. -/
def mrg (K : Kind) : Prng :=
  ⟨(Engine.mrg K).name, MRG K.order, MRG.init K, fun r => (some (MRG.call K.modulus r).1, (MRG.call K.modulus r).2), K.modulus - 1⟩

/-- `yarn2`, ..., `yarn5s`; yarn2.hpp:62-63 `min_`, `max_`. -/
def yarn (K : Kind) : Prng := ⟨(Engine.yarn K).name, MRG K.order, MRG.init K, MRG.callYarn K.modulus K.gen, K.modulus - 1⟩

/-- `mt19937`, `mt19937_64`: unsigned results of `w` bits. -/
def mt {w : Nat} (P : MT.Params w) (name : List Char) : Prng :=
  ⟨name, MT P, MT.default, fun r => ((MT.call r).1.map fun x => (x.toNat : ℤ), (MT.call r).2), 2 ^ w - 1⟩

/-- dieharder_file.cc:104-124: the entries of `func_map`, in the order of insertion.  Their keys are different, so `find` has the same
result as in the sorted map. -/
def prngs : List Prng :=
  [⟨Engine.lcg64.name, LCG64, LCG64.ofParam LCG64.Default, ofBits LCG64.call, 2 ^ 64 - 1⟩,
   ⟨Engine.lcg64Shift.name, LCG64, LCG64.ofParam LCG64.Default, ofBits LCG64.callShift, 2 ^ 64 - 1⟩,
   ⟨Engine.lcg64CountShift.name, LCG64Count, LCG64Count.ofParam LCG64Count.Default, ofBits LCG64Count.call, 2 ^ 64 - 1⟩,
   mrg .k2, mrg .k3, mrg .k3s, mrg .k4, mrg .k5, mrg .k5s,
   yarn .k2, yarn .k3, yarn .k3s, yarn .k4, yarn .k5, yarn .k5s,
   mt MT.mt19937 Engine.mt19937.name, mt MT.mt19937_64 Engine.mt19937_64.name,
   ⟨Engine.count128LcgShift.name, Count128, Count128.ofParam Count128.Default, ofBits Count128.call, 2 ^ 64 - 1⟩]

/-- dieharder_file.cc:62-69 `try_parse` for an unsigned integer of 64 bits: the number, or `none` if the result is false.  `>>` skips
white space first. -/
def tryParse (str : List Char) : Option (BitVec 64) :=
  let r := readU 64 ⟨str.dropWhile U128Text.isSpace, false, false⟩
  if r.2.eof && !r.2.fail then some r.1 else none

/-- dieharder_file.cc:81-82: the loop with `n` turns. -/
def lines (R : Prng) : Nat → R.σ → Option (List Char)
  | 0, _ => some []
  | n + 1, r =>
    match R.call r with
    | (none, _) => none
    | (some x, r) => (lines R n r).map fun t => decimalInt (x - 0) ++ ['\n'] ++ t

/-- dieharder_file.cc:75, 77: the line of `=`. -/
def rule : List Char := '#' :: List.replicate 66 '='

/-- dieharder_file.cc:75-80. -/
def header (R : Prng) (samples seed : BitVec 64) : List Char :=
  rule ++ ['\n'] ++ "# generator ".toList ++ R.name ++ "  seed = ".toList ++ outU seed ++ ['\n'] ++ rule ++ ['\n'] ++
  "type: d\n".toList ++ "count: ".toList ++ outU samples ++ ['\n'] ++ "numbit: ".toList ++ decimal (log2Ceil (R.max - 0)) ++ ['\n']

/-- dieharder_file.cc:72-83 `generate`: the text written; the engine `r` is default-constructed. -/
def generate (R : Prng) (samples seed : BitVec 64) : Option (List Char) :=
  (lines R samples.toNat R.init).map fun t => header R samples seed ++ t

/-- What a run of the program does. -/
inductive Outcome where
  /-- `std::cout` gets this text -/
  | file (t : List Char)
  /-- a message and the usage on `std::cerr` -/
  | usage
  | undefined

/-- dieharder_file.cc:126-140 `main`, after the insertion of the generators; `argv` is the command line with the name of the program
in front.  The text of the messages is not modelled. -/
def main (argv : List (List Char)) : Outcome :=
  if argv.length ≠ 3 ∧ argv.length ≠ 4 then .usage
  else
    match prngs.find? fun R => R.name = argv.getD 1 [] with
    | none => .usage
    | some R =>
      match tryParse (argv.getD 2 []) with
      | none => .usage
      | some samples =>
        match (if argv.length = 4 then tryParse (argv.getD 3 []) else some 0) with
        | none => .usage
        | some seed =>
          match generate R samples seed with
          | none => .undefined
          | some t => .file t

end Trng.Dieharder
