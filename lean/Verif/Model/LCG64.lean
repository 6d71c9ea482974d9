import Verif.Model.Basic
/-
Model of trng::lcg64 (trng/lcg64.hpp, trng/lcg64.cc) and trng::lcg64_shift
(trng/lcg64_shift.hpp, trng/lcg64_shift.cc).

The two classes are textually identical except for the class name and operator()();
they share parameter type, status type, helpers and the parallel methods.  The model has one
object type `LCG64` and two call operators.  `result_type` is `uint64_t`: `BitVec 64`.
-/
namespace Trng

/-- lcg64.hpp:84-121 / lcg64_shift.hpp:84-121 `parameter_type`. -/
structure LCG64.Param where
  a : BitVec 64
  b : BitVec 64
deriving DecidableEq, Repr

/-- lcg64.hpp:51-246 / lcg64_shift.hpp:51-250: the data members `P` and `S` (`S.r`). -/
structure LCG64 where
  P : LCG64.Param
  r : BitVec 64
deriving DecidableEq, Repr

namespace LCG64

/-- lcg64.cc:59, lcg64_shift.cc:61-62 -/
def Default : Param := ⟨18145460002477866997#64, 1#64⟩
/-- lcg64.cc:60, lcg64_shift.cc:63-64 -/
def LEcuyer1 : Param := ⟨2862933555777941757#64, 1#64⟩
/-- lcg64.cc:61, lcg64_shift.cc:65-66 -/
def LEcuyer2 : Param := ⟨3202034522624059733#64, 1#64⟩
/-- lcg64.cc:62, lcg64_shift.cc:67-68 -/
def LEcuyer3 : Param := ⟨3935559000370003845#64, 1#64⟩

/-- lcg64.cc:65 constructor from a parameter set (`S.r` is default initialised to 0,
lcg64.hpp:124). -/
def ofParam (P : Param) : LCG64 := ⟨P, 0⟩

/-- lcg64.cc:71 `seed()`: assigns a default-constructed engine (parameters included). -/
def seed0 (_e : LCG64) : LCG64 := ofParam Default

/-- lcg64.cc:73-75 `seed(unsigned long)`, `seed(unsigned long long)` (LP64: both 64 bit). -/
def seed (e : LCG64) (s : BitVec 64) : LCG64 := { e with r := s }

/-- lcg64.hpp:178-186 `seed(gen &)`: `g 0`, `g 1` are the two values drawn from the generator
(converted to 64 bits when added). -/
def seedGen (e : LCG64) (g : Nat → BitVec 64) : LCG64 :=
  { e with r := (List.range 2).foldl (fun r i => (r <<< 32) + g i) 0 }

/-- lcg64.hpp:250-251 `step`. -/
def step (e : LCG64) : LCG64 := { e with r := e.P.a * e.r + e.P.b }

/-- lcg64.hpp:254-257 `lcg64::operator()()`. -/
def call (e : LCG64) : BitVec 64 × LCG64 :=
  let e := e.step
  (e.r, e)

/-- lcg64_shift.hpp:256-260 the output transformation of `lcg64_shift::operator()()`. -/
def shiftOut (t : BitVec 64) : BitVec 64 :=
  let t := t ^^^ (t >>> 17)
  let t := t ^^^ (t <<< 31)
  t ^^^ (t >>> 8)

/-- lcg64_shift.hpp:254-261 `lcg64_shift::operator()()`. -/
def callShift (e : LCG64) : BitVec 64 × LCG64 :=
  let e := e.step
  (shiftOut e.r, e)

/-- The loop of lcg64.hpp:266-274.  `x` is the value of the variable `x`; the loop runs at most
64 times because `x < 2^64`, `fuel` counts these iterations. -/
def log2FloorLoop : (fuel : Nat) → (x y : Nat) → Nat
  | 0, _, y => y
  | fuel + 1, x, y => if x > 0 then log2FloorLoop fuel (x / 2) (y + 1) else y

/-- lcg64.hpp:265-274 `log2_floor` (`--y` on `unsigned int`; for `x = 0` it would wrap to
`2^32-1`, which is what the model returns). -/
def log2Floor (x : BitVec 64) : BitVec 32 :=
  BitVec.ofNat 32 (log2FloorLoop 64 x.toNat 0) - 1

/-- The loop of lcg64.hpp:280-285; `n` is the value of the variable `n`, at most 64
iterations. -/
def powLoop : (fuel : Nat) → (result x : BitVec 64) → (n : Nat) → BitVec 64
  | 0, result, _, _ => result
  | fuel + 1, result, x, n =>
    if n > 0 then powLoop fuel (if n % 2 > 0 then result * x else result) (x * x) (n / 2)
    else result

/-- lcg64.hpp:276-287 `pow`. -/
def pow (x n : BitVec 64) : BitVec 64 := powLoop 64 1 x n.toNat

/-- lcg64.hpp:289-298 `g`: the `for` loop over `i`, state `(res, p)`. -/
def g (l : Nat) (a : BitVec 64) : BitVec 64 :=
  ((List.range l).foldl (fun (res, p) _ => (res * (1 + p), p * p)) ((1 : BitVec 64), a)).1

/-- lcg64.hpp:300-314 `f`: the `for` loop over `l`, state `(y, p)`; `1ull << l` is a shift by
less than 64 because `l <= e <= 63`. -/
def f (s a : BitVec 64) : BitVec 64 :=
  if s = 0 then 0
  else
    let e := log2Floor s
    ((List.range (e.toNat + 1)).foldl
      (fun (y, p) l =>
        (if (1#64 <<< l) &&& s > 0 then g l a + p * y else y, p * p))
      ((0 : BitVec 64), a)).1

/-- `1ull << s` for an `unsigned int` count: undefined for `s >= 64`. -/
def oneShl (s : Nat) : Option (BitVec 64) :=
  if s < 64 then some (1#64 <<< s) else none

/-- lcg64.hpp:332-335 `jump2`; `none` is the undefined shift. -/
def jump2 (e : LCG64) (s : Nat) : Option LCG64 := do
  let t ← oneShl s
  return { e with r := e.r * pow e.P.a t + f t e.P.a * e.P.b }

/-- The `while` loop of lcg64.hpp:344-349 (at most 64 iterations). -/
def jumpLoop : (fuel : Nat) → (i s : Nat) → LCG64 → Option LCG64
  | 0, _, _, e => some e
  | fuel + 1, i, s, e =>
    if s > 0 then do
      let e ← if s % 2 = 1 then e.jump2 i else some e
      jumpLoop fuel (i + 1) (s / 2) e
    else some e

/-- lcg64.hpp:337-351 `jump`. -/
def jump (e : LCG64) (s : BitVec 64) : Option LCG64 :=
  if s < 16 then some ((List.range s.toNat).foldl (fun e _ => e.step) e)
  else jumpLoop 64 0 s.toNat e

/-- lcg64.hpp:353-354 `discard`. -/
def discard (e : LCG64) (n : BitVec 64) : Option LCG64 := e.jump n

/-- lcg64.hpp:356-360 `backward`. -/
def backward (e : LCG64) : Option LCG64 :=
  (List.range 64).foldlM (fun e i => e.jump2 i) e

/-- lcg64.hpp:318-330 `split` (host build: the argument check is active). -/
def split (e : LCG64) (s n : BitVec 32) : Outcome LCG64 :=
  if s < 1 ∨ n ≥ s then .throws e
  else if s > 1 then
    Outcome.ofOption do
      let e ← e.jump (n.setWidth 64 + 1)
      let b := e.P.b * f (s.setWidth 64) e.P.a
      let a := pow e.P.a (s.setWidth 64)
      backward { e with P := ⟨a, b⟩ }
  else .ok e

end LCG64
end Trng
