import Verif.Model.Basic
/- Model of trng::minstd (trng/minstd.hpp, trng/minstd.cc). -/
namespace Trng

/-- minstd.hpp:63-68, 156: the only data member `S.r`, a `uint32_t`, default value 1. -/
structure Minstd where
  r : BitVec 32 := 1
deriving DecidableEq, Repr

namespace Minstd

/-- minstd.hpp:54, 59 -/
def minVal : BitVec 32 := 1
/-- minstd.hpp:55, 60 -/
def maxVal : BitVec 32 := 2147483646#32

/-- minstd.cc:51, 55 default construction and `seed()`. -/
def default : Minstd := {}
/-- minstd.cc:57-61 `seed(unsigned long)` (64-bit `unsigned long`). -/
def seed (_e : Minstd) (s : BitVec 64) : Minstd :=
  let r : BitVec 32 := (s % 2147483647#64).setWidth 32
  if r = 0 then ⟨1⟩ else ⟨r⟩
/-- minstd.hpp:112-117 `seed(gen &)`; `g i` is the `i`-th value drawn (any unsigned type up to 64
bits).  The loop ends with the first draw not divisible by 2^31-1; `none` if there is none among
the first `fuel` draws. -/
def seedGen (g : Nat → BitVec 64) : (fuel : Nat) → (i : Nat) → Option Minstd
  | 0, _ => none
  | fuel + 1, i =>
    let r : BitVec 32 := (g i % 2147483647#64).setWidth 32
    if r = 0 then seedGen g fuel (i + 1) else some ⟨r⟩

/-- minstd.hpp:164-170 `step`. -/
def step (e : Minstd) : Minstd :=
  let t : BitVec 64 := e.r.setWidth 64 * 16807#64
  let t := (t &&& 0x7fffffff#64) + (t >>> 31)
  let t := if t ≥ 2147483647#64 then t - 2147483647#64 else t
  ⟨t.setWidth 32⟩

/-- minstd.hpp:172-175 `operator()()`. -/
def call (e : Minstd) : BitVec 32 × Minstd :=
  let e := e.step
  (e.r, e)

/-- minstd.hpp:177-181 `discard`; `max_ - min_` is computed in `uint32_t`. -/
def discard (e : Minstd) (n : BitVec 64) : Minstd :=
  let n := n % (maxVal - minVal).setWidth 64
  Nat.repeat step n.toNat e

end Minstd
end Trng
