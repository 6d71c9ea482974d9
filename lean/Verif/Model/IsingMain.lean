import Verif.Model.Discrete

/-!
Model of /repo/examples/Ising_model.cc: the command line (`main`) and the statistics of the report (`output`).  The lattice and the Wolff
algorithm are in `Model/Ising`.
-/
namespace Trng.IsingMain

/-- `std::isspace` in the "C" locale: space and the characters 9 to 13. -/
def isSpace (c : Char) : Bool := c.toNat = 32 || (9 ≤ c.toNat && c.toNat ≤ 13)

/-- The number formed by the digits in front, for `std::atoi`; `n` is the number read so far. -/
def leading : List Char → Nat → Nat
  | [], n => n
  | c :: cs, n => if 48 ≤ c.toNat ∧ c.toNat ≤ 57 then leading cs (10 * n + (c.toNat - 48)) else n

/-- An optional sign and digits, for `std::atoi`. -/
def signed : List Char → ℤ
  | '-' :: t => -(leading t 0 : ℤ)
  | '+' :: t => leading t 0
  | t => leading t 0

/-- `std::atoi` of the C library: white space, a sign, digits; anything after that is ignored, and without digits the result is 0.  The
behaviour is undefined if the number is not an `int`. -/
def atoi (s : List Char) : Option ℤ :=
  let v := signed (s.dropWhile isSpace)
  if -2 ^ 31 ≤ v ∧ v ≤ 2 ^ 31 - 1 then some v else none

/-- Ising_model.cc:387-388 the variables of `main`. -/
structure Opts where
  gen : List Char
  runs : ℤ
  split : ℤ
  L : ℤ
deriving DecidableEq

/-- Ising_model.cc:387-388 the initial values. -/
def Opts.init : Opts := ⟨[], 0, 0, 0⟩

/-- How the loop over the arguments ends. -/
inductive Parsed where
  | ok (o : Opts)
  /-- a message and `EXIT_FAILURE` -/
  | message
  /-- overflow in `std::atoi` -/
  | undefined
deriving DecidableEq

/-- Ising_model.cc:401-442 the loop over the arguments; the list holds `argv[argi]`, `argv[argi + 1]`, ... -/
def parse : List (List Char) → Opts → Parsed
  | [], o => .ok o
  | arg :: rest, o =>
    if arg = "--gen".toList then
      match rest with
      | [] => .message
      | v :: rest => parse rest { o with gen := v }
    else if arg = "--runs".toList then
      match rest with
      | [] => .message
      | v :: rest =>
        match atoi v with
        | none => .undefined
        | some n => parse rest { o with runs := n }
    else if arg = "--split".toList then
      match rest with
      | [] => .message
      | v :: rest =>
        match atoi v with
        | none => .undefined
        | some n => parse rest { o with split := n }
    else if arg = "--size".toList then
      match rest with
      | [] => .message
      | v :: rest =>
        match atoi v with
        | none => .undefined
        | some n => parse rest { o with L := n }
    else .message

/-- A call of `wolff_main`: the name of the engine, the number `s` of streams of which it is stream 0 (`none`: not split), the numbers of
runs and the lattice size. -/
structure Call where
  engine : List Char
  streams : Option Nat
  runs : ℤ
  L : ℤ
deriving DecidableEq

/-- How the program ends. -/
inductive Outcome where
  /-- end of `main`, `EXIT_SUCCESS`, after these simulations -/
  | ended (calls : List Call)
  /-- a message and `EXIT_FAILURE` -/
  | message
  /-- `std::invalid_argument`, which nobody catches -/
  | exception
  | undefined
deriving DecidableEq

/-- Ising_model.cc:443-531: the engines in the order of the blocks of `main`, by the result of `name()` (mrg*.cc, yarn*.cc, lcg64.cc,
lagfib2xor.hpp:220-225, 266, lagfib4xor.hpp:223-228, 270), and whether the block calls `split`. -/
def engines : List (List Char × Bool) :=
  [("lcg64".toList, true), ("mrg2".toList, true), ("mrg3".toList, true), ("mrg3s".toList, true), ("mrg4".toList, true),
   ("mrg5".toList, true), ("mrg5s".toList, true), ("yarn2".toList, true), ("yarn3".toList, true), ("yarn3s".toList, true),
   ("yarn4".toList, true), ("yarn5".toList, true), ("yarn5s".toList, true), ("lagfib2xor_32_103_250".toList, false),
   ("lagfib4xor_32_471_1586_6988_9689".toList, false)]

/-- Ising_model.cc:281-341: the lattice sizes of the `switch`. -/
def sizes : List ℤ := [8, 12, 16, 20, 24, 28, 32, 36, 40, 44, 48, 52, 56, 60, 64]

/-- Ising_model.cc:443-532: the blocks, one for each engine.  `split` throws if the argument, a `long` converted to `unsigned int`, is 0
(lcg64.hpp:321, and so in all mrg*.hpp and yarn*.hpp).  `wolff_main` leaves the program if the size is not in the `switch` (line 342-344), and
`int i` overflows in line 366 if `2 * runs` is not an `int`. -/
def blocks (o : Opts) : List (List Char × Bool) → List Call → Outcome
  | [], done => .ended done
  | (n, splits) :: es, done =>
    if splits ∧ o.split % 2 ^ 32 = 0 then .exception
    else if o.gen = n then
      if o.L ∈ sizes then
        if 2 * o.runs ≤ 2 ^ 31 - 1 then blocks o es (done ++ [⟨n, if splits then some (o.split % 2 ^ 32).toNat else none, o.runs, o.L⟩])
        else .undefined
      else .message
    else blocks o es done

/-- Ising_model.cc:386-533 `main`; `args` are the arguments without the name of the program. -/
def main (args : List (List Char)) : Outcome :=
  if args = [] then .message
  else match parse args .init with
    | .ok o => blocks o engines []
    | .message => .message
    | .undefined => .undefined

/-! ### the report -/

section
variable {α : Type} [Field α]

/-- Ising_model.cc:246-249, one of the two sums, in exact arithmetic: the loop from `j` on with `k` turns. -/
def means (n : Nat) : (k j : Nat) → List α → Option (List α)
  | 0, _, E => some E
  | k + 1, j, E => do
    let E ← Discrete.set? E n ((← E[n]?) + (← E[j]?) / n)
    means n k (j + 1) E

/-- Ising_model.cc:250-253. -/
def squares (n : Nat) : (k j : Nat) → List α → Option (List α)
  | 0, _, E => some E
  | k + 1, j, E => do
    let E ← Discrete.set? E (n + 1) ((← E[n + 1]?) + ((← E[j]?) - (← E[n]?)) * ((← E[j]?) - (← E[n]?)))
    squares n k (j + 1) E

/-- Ising_model.cc:240-259 `output` up to the printing, for one of the vectors `Ea` and `ca`; `n` is `simulations`. -/
def output (sqrt : α → α) (n : Nat) (E : List α) : Option (List α) := do
  let E ← Discrete.set? E n 0
  let E ← Discrete.set? E (n + 1) 0
  let E ← means n n 0 E
  let E ← squares n n 0 E
  let E ← Discrete.set? E (n + 1) ((← E[n + 1]?) / ((n - 1) * n))
  Discrete.set? E (n + 1) (sqrt (← E[n + 1]?))
end

end Trng.IsingMain
