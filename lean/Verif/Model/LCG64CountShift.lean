import Verif.Model.LCG64
/-
Model of trng::lcg64_count_shift (trng/lcg64_count_shift.hpp, trng/lcg64_count_shift.cc).
The helpers log2_floor, pow, g, f (lcg64_count_shift.hpp:287-340) are textually those of lcg64;
the model reuses `LCG64.pow`, `LCG64.f`, `LCG64.oneShl`.
-/
namespace Trng

/-- lcg64_count_shift.hpp:88-129 `parameter_type`. -/
structure LCG64Count.Param where
  a : BitVec 64
  b : BitVec 64
  inc : BitVec 64
deriving DecidableEq, Repr

/-- lcg64_count_shift.hpp:51-260: data members `P`, `S.r`, `S.count`. -/
structure LCG64Count where
  P : LCG64Count.Param
  r : BitVec 64
  count : BitVec 64
deriving DecidableEq, Repr

namespace LCG64Count

/-- lcg64_count_shift.hpp:61 `modulus` (= 2^61 - 1). -/
def modulus : BitVec 64 := 2305843009213693951#64

/-- lcg64_count_shift.cc:63-64 -/
def Default : Param := ⟨18145460002477866997#64, 1#64, 1425089352415399810#64⟩
/-- lcg64_count_shift.cc:65-66 -/
def LEcuyer1 : Param := ⟨2862933555777941757#64, 1#64, 1425089352415399810#64⟩
/-- lcg64_count_shift.cc:67-68 -/
def LEcuyer2 : Param := ⟨3202034522624059733#64, 1#64, 1425089352415399810#64⟩
/-- lcg64_count_shift.cc:69-70 -/
def LEcuyer3 : Param := ⟨3935559000370003845#64, 1#64, 1425089352415399810#64⟩

/-- lcg64_count_shift.cc:73 -/
def ofParam (P : Param) : LCG64Count := ⟨P, 0, 0⟩

/-- lcg64_count_shift.cc:86 `seed()`. -/
def seed0 (_e : LCG64Count) : LCG64Count := ofParam Default

/-- lcg64_count_shift.cc:88-96 `seed(unsigned long)`, `seed(unsigned long long)`. -/
def seed (e : LCG64Count) (s : BitVec 64) : LCG64Count :=
  { e with r := s, count := s % modulus }

/-- lcg64_count_shift.hpp:184-200 `seed(gen &)`; `g i` is the `i`-th value drawn. -/
def seedGen (e : LCG64Count) (g : Nat → BitVec 64) : LCG64Count :=
  { e with
    r := (List.range 2).foldl (fun (r : BitVec 64) i => (r <<< 32) + g i) 0
    count := ((List.range 2).foldl (fun (r : BitVec 64) i => (r <<< 32) + g (2 + i)) (0 : BitVec 64)) % modulus }

/-- The recurring idiom `count += d; if (count >= modulus) count -= modulus;`
(e.g. lcg64_count_shift.hpp:267-269). -/
def addCount (count d : BitVec 64) : BitVec 64 :=
  let c := count + d
  if c ≥ modulus then c - modulus else c

/-- lcg64_count_shift.hpp:265-270 `step`. -/
def step (e : LCG64Count) : LCG64Count :=
  { e with r := e.P.a * e.r + e.P.b, count := addCount e.count e.P.inc }

/-- lcg64_count_shift.hpp:273-280 `operator()()`. -/
def call (e : LCG64Count) : BitVec 64 × LCG64Count :=
  let e := e.step
  let t := e.r + e.count
  let t := t ^^^ (t >>> 17)
  let t := t ^^^ (t <<< 31)
  (t ^^^ (t >>> 8), e)

/-- The loop of lcg64_count_shift.hpp:349-359; `a` is the value of the variable `a`, at most 64
iterations. -/
def multLoop : (fuel : Nat) → (a : Nat) → (result x : BitVec 64) → BitVec 64
  | 0, _, result, _ => result
  | fuel + 1, a, result, x =>
    if a > 0 then
      multLoop fuel (a / 2) (if a % 2 = 1 then addCount result x else result) (addCount x x)
    else result

/-- lcg64_count_shift.hpp:342-361 `mult_modulo`. -/
def multModulo (a b : BitVec 64) : BitVec 64 :=
  let (a, b) := if a > b then (b, a) else (a, b)
  multLoop 64 a.toNat 0 b

/-- lcg64_count_shift.hpp:386 and 407 and 424: the LCG part of a jump by `2^i`. -/
def rJump2 (P : Param) (r : BitVec 64) (i : Nat) : Option (BitVec 64) := do
  let t ← LCG64.oneShl i
  return r * LCG64.pow P.a t + LCG64.f t P.a * P.b

/-- lcg64_count_shift.hpp:383-394 `jump2`. -/
def jump2 (e : LCG64Count) (s : Nat) : Option LCG64Count := do
  let r ← rJump2 e.P e.r s
  let p := (List.range s).foldl (fun p _ => multModulo 2 p) (1 : BitVec 64)
  return { e with r := r, count := addCount e.count (multModulo p e.P.inc) }

/-- lcg64_count_shift.hpp:405-410: the `while` loop over the bits of `s_l`. -/
def rJumpLoop (P : Param) : (fuel : Nat) → (i s : Nat) → (r : BitVec 64) → Option (BitVec 64)
  | 0, _, _, r => some r
  | fuel + 1, i, s, r =>
    if s > 0 then do
      let r ← if s % 2 = 1 then rJump2 P r i else some r
      rJumpLoop P fuel (i + 1) (s / 2) r
    else some r

/-- lcg64_count_shift.hpp:396-416 `jump`. -/
def jump (e : LCG64Count) (s : BitVec 64) : Option LCG64Count :=
  if s < 16 then some ((List.range s.toNat).foldl (fun e _ => e.step) e)
  else do
    let r ← rJumpLoop e.P 64 0 s.toNat e.r
    return { e with r := r, count := addCount e.count (multModulo e.P.inc s) }

/-- lcg64_count_shift.hpp:418-419 `discard`. -/
def discard (e : LCG64Count) (n : BitVec 64) : Option LCG64Count := e.jump n

/-- lcg64_count_shift.hpp:421-428 `backward`. -/
def backward (e : LCG64Count) : Option LCG64Count := do
  let r ← (List.range 64).foldlM (fun r i => rJump2 e.P r i) e.r
  return { e with r := r, count := addCount e.count (modulus - e.P.inc) }

/-- lcg64_count_shift.hpp:365-381 `split`. -/
def split (e : LCG64Count) (s n : BitVec 32) : Outcome LCG64Count :=
  if s < 1 ∨ n ≥ s then .throws e
  else if s > 1 then
    Outcome.ofOption do
      let e ← e.jump (n.setWidth 64 + 1)
      let b := e.P.b * LCG64.f (s.setWidth 64) e.P.a
      let a := LCG64.pow e.P.a (s.setWidth 64)
      let inc := multModulo (s.setWidth 64) e.P.inc
      backward { e with P := ⟨a, b, inc⟩ }
  else .ok e

end LCG64Count
end Trng
