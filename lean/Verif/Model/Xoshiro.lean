import Verif.Model.LinAlg
import Verif.Model.Minstd

/- Model of trng/xoshiro256plus.hpp and trng/xoshiro256plus.cc. -/
namespace Trng
open LinAlg

/-- xoshiro256plus.hpp:67-73 `status_type`, with the default values; 211: the only data member. -/
structure Xoshiro where
  r0 : BitVec 64 := 1#64 <<< 63
  r1 : BitVec 64 := 0
  r2 : BitVec 64 := 0
  r3 : BitVec 64 := 0
deriving DecidableEq, Repr

namespace Xoshiro

/-- xoshiro256plus.hpp:221-229 `step`. -/
def step (e : Xoshiro) : Xoshiro :=
  let t := e.r1 <<< 17
  let r2 := e.r2 ^^^ e.r0
  let r3 := e.r3 ^^^ e.r1
  let r1 := e.r1 ^^^ r2
  let r0 := e.r0 ^^^ r3
  let r2 := r2 ^^^ t
  let r3 := (r3 <<< 45) ||| (r3 >>> (64 - 45))
  ⟨r0, r1, r2, r3⟩

/-- xoshiro256plus.hpp:232-235 `operator()()`. -/
def call (e : Xoshiro) : BitVec 64 × Xoshiro :=
  let e := e.step
  (e.r0 + e.r3, e)

/-- xoshiro256plus.cc:55, 64 default construction and `seed()`. -/
def default : Xoshiro := {}

/-- xoshiro256plus.hpp:159-160 and .cc:76-77: a zero state is replaced. -/
def fix (e : Xoshiro) : Xoshiro :=
  if e.r0 = 0 ∧ e.r1 = 0 ∧ e.r2 = 0 ∧ e.r3 = 0 then { e with r0 := e.r0 ||| (1#64 <<< 63) } else e

/-- xoshiro256plus.cc:71-78 `seed(s0, s1, s2, s3)`. -/
def seed4 (_e : Xoshiro) (s0 s1 s2 s3 : BitVec 64) : Xoshiro := fix ⟨s0, s1, s2, s3⟩

/-- xoshiro256plus.hpp:150-161 `seed(gen &)`; `g i` is the `i`-th value drawn, converted to
64 bits. -/
def seedGen (_e : Xoshiro) (g : Nat → BitVec 64) : Xoshiro :=
  let word (k : Nat) : BitVec 64 := ((0#64 <<< 32) + g (2 * k)) <<< 32 + g (2 * k + 1)
  fix ⟨word 0, word 1, word 2, word 3⟩

/-- xoshiro256plus.cc:66-69 `seed(unsigned long)`: the draws of `minstd R(s)`. -/
def seed (e : Xoshiro) (s : BitVec 64) : Xoshiro :=
  e.seedGen fun k => ((Nat.repeat (fun m : Minstd => m.step) k (Minstd.default.seed s)).step).r.setWidth 64

/-- xoshiro256plus.hpp:77-87 the constructor `status_type(i, eye)`, for `0 ≤ i`. -/
def eye (i : Nat) : Xoshiro :=
  let mask := 1#64 <<< 63
  if i < 64 then ⟨mask >>> i, 0, 0, 0⟩
  else if i < 2 * 64 then ⟨0, mask >>> (i - 64), 0, 0⟩
  else if i < 3 * 64 then ⟨0, 0, mask >>> (i - 2 * 64), 0⟩
  else ⟨0, 0, 0, mask >>> (i - 3 * 64)⟩

/-- xoshiro256plus.hpp:122-134 `to_vector`; the four loops fill disjoint parts. -/
def toVector (e : Xoshiro) : Vec GF2 256 := fun k =>
  let mask := 1#64 <<< 63
  let r := if k.val < 64 then e.r0 else if k.val < 2 * 64 then e.r1 else if k.val < 3 * 64 then e.r2 else e.r3
  ⟨decide (((r <<< (k.val % 64)) &&& mask) > 0)⟩

/-- xoshiro256plus.hpp:246-254, 278-286: the matrix of one step, column by column. -/
def matrix : Mat GF2 256 :=
  (List.finRange 256).foldl (fun M i =>
    let v := (eye i.val).step.toVector
    (List.finRange 256).foldl (fun M j => M.set j i (v j)) M) Mat.zero

/-- xoshiro256plus.hpp:262-269, 292-299: word number `j` from a bit vector. -/
def buildWord (v : Vec GF2 256) (j : Fin 4) : BitVec 64 :=
  (List.finRange 64).foldl (fun (r : BitVec 64) i =>
    let r := r <<< 1
    if (v ⟨i.val + 64 * j.val, by omega⟩).value then r ||| 1 else r) 0

/-- xoshiro256plus.hpp:261-269, 291-299: the state from a bit vector. -/
def fromVector (v : Vec GF2 256) : Xoshiro := ⟨buildWord v 0, buildWord v 1, buildWord v 2, buildWord v 3⟩

/-- xoshiro256plus.hpp:245-270 `jump2`. -/
def jump2 (e : Xoshiro) (s : BitVec 32) : Xoshiro :=
  let M := Nat.repeat (fun M => power M 2) s.toNat matrix
  fromVector (mvmul M e.toVector)

/-- xoshiro256plus.hpp:273-301 `jump`. -/
def jump (e : Xoshiro) (s : BitVec 64) : Xoshiro :=
  if s < 16 then Nat.repeat step s.toNat e
  else fromVector (mvmul (power matrix s) e.toVector)

/-- xoshiro256plus.hpp:304 `discard`. -/
def discard (e : Xoshiro) (s : BitVec 64) : Xoshiro := e.jump s

/-- xoshiro256plus.cc:43-47, 81 `operator==`. -/
def eq (e e' : Xoshiro) : Bool := e.r0 = e'.r0 && e.r1 = e'.r1 && e.r2 = e'.r2 && e.r3 = e'.r3

end Xoshiro
end Trng
