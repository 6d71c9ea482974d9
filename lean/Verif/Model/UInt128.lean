import Verif.Model.Basic
/-
Model of trng/uint128.hpp: the portable 128-bit integer class (`portable_impl::uint128`).
The native class (`optimized_impl::uint128`, lines 270-468) wraps `unsigned __int128`, i.e.
`BitVec 128`, and forwards every operator to it.
-/
namespace Trng

/-- uint128.hpp:493-495 `portable_impl::uint128`, data members `m_lo`, `m_hi`. -/
@[ext] structure PU128 where
  lo : BitVec 64
  hi : BitVec 64
deriving DecidableEq, Repr

namespace PU128

/-- uint128.hpp:497, 505-506: `create(hi, lo)` and the constructor from two words. -/
def create (hi lo : BitVec 64) : PU128 := ⟨lo, hi⟩
/-- uint128.hpp:502-503: `explicit uint128(std::uint64_t lo)`. -/
def ofU64 (lo : BitVec 64) : PU128 := ⟨lo, 0⟩
/-- uint128.hpp:508-510 `lo()`. -/
def getLo (a : PU128) : BitVec 64 := a.lo
/-- uint128.hpp:512-514 `hi()`: returns `m_lo`, as in the source. -/
def getHi (a : PU128) : BitVec 64 := a.lo
/-- uint128.hpp:516-518: conversion to `std::uint64_t`. -/
def toU64 (a : PU128) : BitVec 64 := a.lo

/-- uint128.hpp:532-534 `operator==`. -/
def eq (a b : PU128) : Bool := a.lo == b.lo && a.hi == b.hi
/-- uint128.hpp:536-538 `operator!=`. -/
def ne (a b : PU128) : Bool := a.lo != b.lo || a.hi != b.hi
/-- uint128.hpp:540-542 `operator<`. -/
def lt (a b : PU128) : Bool := decide (a.hi < b.hi) || (a.hi == b.hi && decide (a.lo < b.lo))
/-- uint128.hpp:544-546 `operator<=`. -/
def le (a b : PU128) : Bool := decide (a.hi < b.hi) || (a.hi == b.hi && decide (a.lo ≤ b.lo))
/-- uint128.hpp:548-550 `operator>`. -/
def gt (a b : PU128) : Bool := decide (a.hi > b.hi) || (a.hi == b.hi && decide (a.lo > b.lo))
/-- uint128.hpp:552-554 `operator>=`. -/
def ge (a b : PU128) : Bool := decide (a.hi > b.hi) || (a.hi == b.hi && decide (a.lo ≥ b.lo))

/-- conversion of a C++ `bool` to an integer (0 or 1) -/
def b2u (b : Bool) : BitVec 64 := if b then 1 else 0

/-- uint128.hpp:679-684 `operator++`. -/
def inc (a : PU128) : PU128 :=
  let lo := a.lo + 1
  if lo = 0 then ⟨lo, a.hi + 1⟩ else ⟨lo, a.hi⟩
/-- uint128.hpp:692-697 `operator--`. -/
def dec (a : PU128) : PU128 :=
  let hi := if a.lo = 0 then a.hi - 1 else a.hi
  ⟨a.lo - 1, hi⟩
/-- uint128.hpp:558-560 unary `operator-`. -/
def neg (a : PU128) : PU128 := inc (create (~~~a.hi) (~~~a.lo))
/-- uint128.hpp:562-567 `operator+=` (and 659-661). -/
def add (a b : PU128) : PU128 :=
  let lo := a.lo + b.lo
  let hi := a.hi + b2u (decide (lo < b.lo))
  ⟨lo, hi + b.hi⟩
/-- uint128.hpp:569-575 `operator-=` (and 663-665). -/
def sub (a b : PU128) : PU128 :=
  let backup := a.lo
  let lo := a.lo - b.lo
  let hi := a.hi - b2u (decide (lo > backup))
  ⟨lo, hi - b.hi⟩
/-- uint128.hpp:577-609 `operator*=` (and 667-669). -/
def mul (a b : PU128) : PU128 :=
  let lo0 := a.lo &&& 0xffffffff
  let lo1 := a.lo >>> 32
  let hi0 := a.hi &&& 0xffffffff
  let hi1 := a.hi >>> 32
  let other_lo0 := b.lo &&& 0xffffffff
  let other_lo1 := b.lo >>> 32
  let other_hi0 := b.hi &&& 0xffffffff
  let other_hi1 := b.hi >>> 32
  let m0 := create 0 (lo0 * other_lo0)
  let m1 := create ((lo1 * other_lo0) >>> 32) ((lo1 * other_lo0) <<< 32)
  let t := add m0 m1
  let m2 := create ((lo0 * other_lo1) >>> 32) ((lo0 * other_lo1) <<< 32)
  let t := add t m2
  let m3 := hi0 * other_lo0
  let m4 := lo0 * other_hi0
  let m5 := lo1 * other_lo1
  let m6 := (hi1 * other_lo0) <<< 32
  let m7 := (lo0 * other_hi1) <<< 32
  let m8 := (hi0 * other_lo1) <<< 32
  let m9 := (lo1 * other_hi0) <<< 32
  ⟨t.lo, t.hi + m3 + m4 + m5 + m6 + m7 + m8 + m9⟩

/-- uint128.hpp:705-709, 723-725 `operator|=`, `operator|`. -/
def or (a b : PU128) : PU128 := create (a.hi ||| b.hi) (a.lo ||| b.lo)
/-- uint128.hpp:711-715, 727-729 `operator&=`, `operator&`. -/
def and (a b : PU128) : PU128 := create (a.hi &&& b.hi) (a.lo &&& b.lo)
/-- uint128.hpp:717-721, 731-733 `operator^=`, `operator^`. -/
def xor (a b : PU128) : PU128 := create (a.hi ^^^ b.hi) (a.lo ^^^ b.lo)
/-- uint128.hpp:735-737 `operator~`. -/
def not (a : PU128) : PU128 := create (~~~a.hi) (~~~a.lo)

/-- uint128.hpp:754-758: `operator>>` for a non-negative count; the shift of a 64-bit word by 64
or more bits is undefined. -/
def shrNat (a : PU128) (s : Nat) : Option PU128 :=
  if s = 0 then some a
  else if s < 64 then some (create (a.hi >>> s) ((a.lo >>> s) ||| (a.hi <<< (64 - s))))
  else if s - 64 < 64 then some (create 0 (a.hi >>> (s - 64)))
  else none
/-- uint128.hpp:764-768: `operator<<` for a non-negative count. -/
def shlNat (a : PU128) (s : Nat) : Option PU128 :=
  if s = 0 then some a
  else if s < 64 then some (create ((a.hi <<< s) ||| (a.lo >>> (64 - s))) (a.lo <<< s))
  else if s - 64 < 64 then some (create (a.lo <<< (s - 64)) 0)
  else none
/-- uint128.hpp:739-743, 751-759 `operator>>=`, `operator>>`; `s` is an `int`. -/
def shr (a : PU128) (s : Int) : Option PU128 :=
  if s < 0 then shlNat a (-s).toNat else shrNat a s.toNat
/-- uint128.hpp:745-749, 761-769 `operator<<=`, `operator<<`. -/
def shl (a : PU128) (s : Int) : Option PU128 :=
  if s < 0 then shrNat a (-s).toNat else shlNat a s.toNat

/-- The shift by one used inside the division loops (`r <<= 1`, uint128.hpp:615, 623); it is the
`s < 64` branch of `operator<<`. -/
def shl1 (a : PU128) : PU128 := create ((a.hi <<< 1) ||| (a.lo >>> 63)) (a.lo <<< 1)

/-- One iteration of the first loop of `/=` and `%=` (uint128.hpp:614-621, 638-645);
`j = i - 64`. State: quotient, remainder. -/
def divStepHi (a other : PU128) (qr : PU128 × PU128) (j : Nat) : PU128 × PU128 :=
  let (q, r) := qr
  let r := shl1 r
  let r : PU128 := ⟨r.lo ||| (if a.hi &&& (1#64 <<< j) > 0 then 1 else 0), r.hi⟩
  if ge r other then (⟨q.lo, q.hi ||| (1#64 <<< j)⟩, sub r other) else (q, r)

/-- One iteration of the second loop (uint128.hpp:622-629, 646-653). -/
def divStepLo (a other : PU128) (qr : PU128 × PU128) (j : Nat) : PU128 × PU128 :=
  let (q, r) := qr
  let r := shl1 r
  let r : PU128 := ⟨r.lo ||| (if a.lo &&& (1#64 <<< j) > 0 then 1 else 0), r.hi⟩
  if ge r other then (⟨q.lo ||| (1#64 <<< j), q.hi⟩, sub r other) else (q, r)

/-- The indices 63, 62, ..., 0. -/
def down64 : List Nat := (List.range 64).reverse

/-- uint128.hpp:611-629 / 635-653: both loops. -/
def divMod (a other : PU128) : PU128 × PU128 :=
  down64.foldl (divStepLo a other) (down64.foldl (divStepHi a other) (⟨0, 0⟩, ⟨0, 0⟩))

/-- uint128.hpp:611-633 `operator/=` (and 671-673). -/
def div (a other : PU128) : PU128 := (divMod a other).1
/-- uint128.hpp:635-657 `operator%=` (and 675-677). -/
def mod (a other : PU128) : PU128 := (divMod a other).2

end PU128
end Trng
