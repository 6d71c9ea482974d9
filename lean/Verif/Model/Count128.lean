import Verif.Model.UInt128
/-
Model of trng::count128_lcg_shift (trng/count128_lcg_shift.hpp, .cc), once with the native 128-bit
integers (`BitVec 128`, uint128.hpp:792) and once with the portable ones (uint128.hpp:794).
`seed(gen &)` (count128_lcg_shift.hpp:160-167) is not modelled: `r += g()` needs an implicit
conversion from the generator's result type to uint128, which is declared explicit, so the template
cannot be instantiated with an integer generator.
-/
namespace Trng

/-- count128_lcg_shift.hpp:71-78 `parameter_type`. -/
structure Count128.Param where
  increment : BitVec 128
  a : BitVec 64
  b : BitVec 64
deriving DecidableEq, Repr

/-- count128_lcg_shift.hpp:51, 239-240: members `P` and `S.r`. -/
structure Count128 where
  P : Count128.Param
  r : BitVec 128
deriving DecidableEq, Repr

namespace Count128

/-- uint128.hpp:281-285: construction from two words (native). -/
def words (hi lo : BitVec 64) : BitVec 128 := ((hi.setWidth 128) <<< 64) ||| (lo.setWidth 128)

/-- count128_lcg_shift.cc:62-63 -/
def Default : Param := ⟨words 0xfe2134b266a61770#64 0x32095479a8f5500b#64, 18145460002477866997#64, 1⟩
/-- count128_lcg_shift.cc:64-65 -/
def LEcuyer1 : Param := ⟨words 0xfe2134b266a61770#64 0x32095479a8f5500b#64, 2862933555777941757#64, 1⟩
/-- count128_lcg_shift.cc:66-67 -/
def LEcuyer2 : Param := ⟨words 0xfe2134b266a61770#64 0x32095479a8f5500b#64, 3202034522624059733#64, 1⟩
/-- count128_lcg_shift.cc:68-69 -/
def LEcuyer3 : Param := ⟨words 0xfe2134b266a61770#64 0x32095479a8f5500b#64, 3935559000370003845#64, 1⟩

/-- count128_lcg_shift.cc:72 -/
def ofParam (P : Param) : Count128 := ⟨P, 0⟩
/-- count128_lcg_shift.cc:82 `seed()`. -/
def seed0 (_e : Count128) : Count128 := ofParam Default
/-- count128_lcg_shift.cc:84-90 `seed(unsigned long)`, `seed(unsigned long long)`. -/
def seed (e : Count128) (s : BitVec 64) : Count128 := { e with r := words s s }

/-- count128_lcg_shift.hpp:236-238 `step`. -/
def step (e : Count128) : Count128 := { e with r := e.r + e.P.increment }

/-- count128_lcg_shift.hpp:245-249: output function of the two words. -/
def output (P : Param) (hi lo : BitVec 64) : BitVec 64 :=
  let t := (lo ^^^ hi) * P.a + P.b
  let t := t ^^^ (t >>> 23)
  let t := t ^^^ (t <<< 41)
  t ^^^ (t >>> 18)

/-- count128_lcg_shift.hpp:241-250 `operator()()`; `hi()`, `lo()` from uint128.hpp:291-297. -/
def call (e : Count128) : BitVec 64 × Count128 :=
  let e := e.step
  (output e.P ((e.r >>> 64).setWidth 64) ((e.r &&& 0xffffffffffffffff#128).setWidth 64), e)

/-- count128_lcg_shift.hpp:260-275 `split`. -/
def split (e : Count128) (s n : BitVec 32) : Outcome Count128 :=
  if s < 1 ∨ n ≥ s then .throws e
  else if s > 1 then
    let r := e.r + words 0 (n.setWidth 64) * e.P.increment
    let r := r + e.P.increment
    let increment := e.P.increment * words 0 (s.setWidth 64)
    let r := r - increment
    .ok ⟨⟨increment, e.P.a, e.P.b⟩, r⟩
  else .ok e

/-- count128_lcg_shift.hpp:278-280 `jump2`; the shift count `s % 128` is always in range. -/
def jump2 (e : Count128) (s : BitVec 32) : Count128 :=
  { e with r := e.r + (words 0 1 <<< (s.toNat % 128)) * e.P.increment }

/-- count128_lcg_shift.hpp:283-285 `jump`. -/
def jump (e : Count128) (s : BitVec 64) : Count128 :=
  { e with r := e.r + words 0 s * e.P.increment }

/-- count128_lcg_shift.hpp:288-290 `discard`. -/
def discard (e : Count128) (n : BitVec 64) : Count128 := e.jump n

/-- count128_lcg_shift.cc:42-45, 53-55, 93-95 `operator==` (the parameter comparison ignores
`increment`, as in the source). -/
def eq (e e' : Count128) : Bool := (e.P.a == e'.P.a && e.P.b == e'.P.b) && e.r == e'.r

end Count128

/-! ### the same engine on top of the portable integers -/

/-- count128_lcg_shift.hpp:71-78, 113 with `portable_impl::uint128`. -/
structure Count128P where
  increment : PU128
  a : BitVec 64
  b : BitVec 64
  r : PU128
deriving DecidableEq, Repr

namespace Count128P
open PU128

/-- count128_lcg_shift.cc:62-63, 72 -/
def Default : Count128P :=
  ⟨create 0xfe2134b266a61770#64 0x32095479a8f5500b#64, 18145460002477866997#64, 1, ⟨0, 0⟩⟩

/-- count128_lcg_shift.cc:84-90. -/
def seed (e : Count128P) (s : BitVec 64) : Count128P := { e with r := create s s }

/-- count128_lcg_shift.hpp:236-238 `step`. -/
def step (e : Count128P) : Count128P := { e with r := add e.r e.increment }

/-- count128_lcg_shift.hpp:241-250 `operator()()`, with `hi()`, `lo()` of uint128.hpp:508-514. -/
def call (e : Count128P) : BitVec 64 × Count128P :=
  let e := e.step
  (Count128.output ⟨0, e.a, e.b⟩ (getHi e.r) (getLo e.r), e)

/-- count128_lcg_shift.hpp:283-285 `jump`. -/
def jump (e : Count128P) (s : BitVec 64) : Count128P :=
  { e with r := add e.r (mul (create 0 s) e.increment) }

/-- count128_lcg_shift.hpp:278-280 `jump2`. -/
def jump2 (e : Count128P) (s : BitVec 32) : Option Count128P := do
  let t ← shl (create 0 1) (s.toNat % 128 : Nat)
  return { e with r := add e.r (mul t e.increment) }

/-- count128_lcg_shift.hpp:260-275 `split`. -/
def split (e : Count128P) (s n : BitVec 32) : Outcome Count128P :=
  if s < 1 ∨ n ≥ s then .throws e
  else if s > 1 then
    let r := add e.r (mul (create 0 (n.setWidth 64)) e.increment)
    let r := add r e.increment
    let increment := mul e.increment (create 0 (s.setWidth 64))
    let r := sub r increment
    .ok ⟨increment, e.a, e.b, r⟩
  else .ok e

end Count128P
end Trng
