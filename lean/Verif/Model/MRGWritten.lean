import Verif.Model.MRG
import Mathlib.Data.Fin.VecNotation

/-!
The functions of the twelve engines mrg2, yarn2, mrg3, yarn3, mrg3s, yarn3s, mrg4, yarn4, mrg5, yarn5, mrg5s, yarn5s as they are
written, statement by statement, for the host (`cuda = false`) and for CUDA (`cuda = true`, if the macro `TRNG_CUDA` is defined).
The functions of the engines with the same number of terms are the same text up to the name of the engine and the modulus, which
is the argument `m`.  `Model/MRG` has the same functions for any number of terms; `Proofs/MRGWritten` shows that they agree.
-/
namespace Trng.MRGWritten
open IntMath MRG

/-- The assignment `x[i] = v;` to an element of an array. -/
def put {n : Nat} (x : Fin n → Int) (i : Fin n) (v : Int) : Fin n → Int := Function.update x i v

/-- An array with `n * n` elements as matrix: the functions of int_math.hpp:80-211 access row `i` and column `j` as
`x[n * i + j]`. -/
def square (n : Nat) (l : List Int) : Fin n → Fin n → Int := fun i j => l.getD (n * i.val + j.val) 0

/-! ### int_math.hpp with and without CUDA -/

/-- int_math.hpp:117-138 `modulo_inverse`: the exceptions are for the host only. -/
def inverse (cuda : Bool) (a m : Int) : Res Int :=
  if cuda = false ∧ (a ≤ 0 ∨ m ≤ 1) then .throws
  else do
    let (a', f) ← modInvLoop (a.toNat + 1) a m 0 1
    if cuda = false ∧ a' = 0 then .throws
    else if f ≥ 0 then .ok f else i32 (f + m)

/-- int_math.hpp:173-189: eliminate column `i` from row `p[j]`. -/
def elimRow (cuda : Bool) {n : Nat} (m : Int) (i : Fin n) (s : GState n) (j : Fin n) : Res (GState n) :=
  if s.a (s.p j) i ≠ 0 then do
    let t ← inverse cuda (s.a (s.p j) i) m
    let s ← gaussRow m t i j s
    let y := mulMod (s.b (s.p j)) t m
    let y ← subMod y (s.b (s.p i)) m
    return s.setB (s.p j) y
  else .ok s

/-- int_math.hpp:150-190: the main loop, over the remaining columns; `rank` is counted. -/
def triangular (cuda : Bool) {n : Nat} (m : Int) : List (Fin n) → (rank : Nat) → GState n → Res (Nat × GState n)
  | [], rank, s => .ok (rank, s)
  | i :: is, rank, s =>
    let s := gaussPivot s i
    if s.a (s.p i) i = 0 then .ok (rank, s)
    else do
      let t ← inverse cuda (s.a (s.p i) i) m
      let s := gaussScale m t s i
      let s ← (afterIdx i).foldlM (elimRow cuda m i) s
      triangular cuda m is (rank + 1) s

/-- int_math.hpp:143-211 `gauss`: the check for a solution is for the host only. -/
def solve (cuda : Bool) {n : Nat} (a : Fin n → Fin n → Int) (b : Fin n → Int) (m : Int) : Res (Fin n → Int) := do
  let (rank, s) ← triangular cuda m (List.finRange n) 0 ⟨a, b, id⟩
  if cuda = false then gaussCheck rank s
  let s ← gaussBack m s
  return fun i => s.b (s.p i)

/-! ### The engines with two terms -/

namespace N2

/-- mrg2.hpp:157-162, yarn2.hpp:159-164 `step`. -/
def step (m : Nat) (e : MRG 2) : MRG 2 :=
  let r := e.r
  let t : BitVec 64 := BitVec.ofInt 64 (e.a 0) * BitVec.ofInt 64 (r 0) + BitVec.ofInt 64 (e.a 1) * BitVec.ofInt 64 (r 1)
  let r := put r 1 (r 0)
  let r := put r 0 (modulo m 2 t)
  { e with r := r }

/-- mrg2.hpp:209-230, yarn2.hpp:225-246: the array `b` before the loop of `jump2`. -/
def jump2Init (a : Fin 2 → Int) : Fin 2 → Fin 2 → Int :=
  square 2 [a 0, a 1, 1, 0]

/-- mrg2.hpp:209-230, yarn2.hpp:225-246 `jump2`; the loop is `MRG.sqLoop`. -/
def jump2 (m : Nat) (e : MRG 2) (s : BitVec 32) : MRG 2 :=
  let (b, c) := sqLoop m s.toNat (jump2Init e.a) (fun _ _ => 0)
  let d := if s &&& 1 = 0 then matrixVecMult b e.r m else matrixVecMult c e.r m
  let r := e.r
  let r := put r 0 (d 0)
  let r := put r 1 (d 1)
  { e with r := r }

/-- mrg2.hpp:233-246, yarn2.hpp:249-262: the loop over the binary digits of `s` in `jump`. -/
def jumpLoop (m : Nat) : (fuel : Nat) → (i : BitVec 32) → (s : BitVec 64) → MRG 2 → MRG 2
  | 0, _, _, e => e
  | fuel + 1, i, s, e =>
    if s > 0 then jumpLoop m fuel (i + 1) (s >>> 1) (if s % 2 = 1 then jump2 m e i else e) else e

/-- mrg2.hpp:233-246, yarn2.hpp:249-262 `jump`, to which `discard` forwards. -/
def jump (m : Nat) (e : MRG 2) (s : BitVec 64) : MRG 2 :=
  if s < 16 then (step m)^[s.toNat] e else jumpLoop m 64 0 s e

/-- mrg2.hpp:252-274, yarn2.hpp:268-290 `backward`. -/
def backward (cuda : Bool) (m : Nat) (e : MRG 2) : Res (MRG 2) := do
  let r := e.r
  let t ←
    if e.a 1 ≠ 0 then do
      let t := r 0
      let t ← subMod t (mulMod (e.a 0) (r 1) m) m
      let i ← inverse cuda (e.a 1) m
      pure (mulMod t i m)
    else if e.a 0 ≠ 0 then do
      let t := r 1
      let i ← inverse cuda (e.a 0) m
      pure (mulMod t i m)
    else pure 0
  let r := put r 0 (r 1)
  let r := put r 1 (t)
  return { e with r := r }

/-- mrg2.hpp:177-206, yarn2.hpp:193-222: the calls of `backward` at the end of `split`. -/
def backwardN (cuda : Bool) (m : Nat) : Nat → MRG 2 → Outcome (MRG 2)
  | 0, e => .ok e
  | k + 1, e =>
    match backward cuda m e with
    | .ok e' => backwardN cuda m k e'
    | .throws => .throws e
    | .ub => .ub

/-- mrg2.hpp:177-206, yarn2.hpp:193-222 `split`; the stream number is `k` here. -/
def split (cuda : Bool) (m : Nat) (e : MRG 2) (s k : BitVec 32) : Outcome (MRG 2) :=
  if cuda = false ∧ (s < 1 ∨ k ≥ s) then .throws e
  else if s > 1 then
    let e := jump m e (k.setWidth 64 + 1)
    let q0 := e.r 0
    let e := jump m e (s.setWidth 64)
    let q1 := e.r 0
    let e := jump m e (s.setWidth 64)
    let q2 := e.r 0
    let e := jump m e (s.setWidth 64)
    let q3 := e.r 0
    let a := ![q2, q3]
    let b := square 2 [q1, q0, q2, q1]
    match solve cuda b a m with
    | .throws => .throws e
    | .ub => .ub
    | .ok a =>
      let p := e.a
      let r := e.r
      let p := put p 0 (a 0)
      let p := put p 1 (a 1)
      let r := put r 0 q1
      let r := put r 1 q0
      backwardN cuda m 2 ⟨p, r⟩
  else .ok e

/-- mrg2.cc:50-57, yarn2.cc:50-57 `seed(unsigned long)`. -/
def seed (m : Nat) (e : MRG 2) (s : BitVec 64) : MRG 2 :=
  let t := s.toInt.tmod m
  let t := if t < 0 then t + m else t
  let r := put e.r 0 t
  let r := put r 1 1
  { e with r := r }

/-- mrg2.cc:59-66, yarn2.cc:59-66 `seed` with two arguments. -/
def seedN (m : Nat) (e : MRG 2) (s1 s2 : BitVec 32) : MRG 2 :=
  let r := e.r
  let r := put r 0 (s1.toInt.tmod m)
  let r := if r 0 < 0 then put r 0 (r 0 + m) else r
  let r := put r 1 (s2.toInt.tmod m)
  let r := if r 1 < 0 then put r 1 (r 1 + m) else r
  { e with r := r }

/-- mrg2.hpp:87-92, yarn2.hpp:89-94 `seed(gen &)`; `g i` is the value of the `i`-th call. -/
def seedGen (m : Nat) (e : MRG 2) (g : Nat → Int) : MRG 2 :=
  let r1 : Int := ((BitVec.ofInt 32 (g 0)).toNat % m : Nat)
  let r2 : Int := ((BitVec.ofInt 32 (g 1)).toNat % m : Nat)
  let r := e.r
  let r := put r 0 r1
  let r := put r 1 r2
  { e with r := r }

end N2

/-! ### The engines with three terms -/

namespace N3

/-- mrg3.hpp:160-167, yarn3.hpp:162-169, mrg3s.hpp:159-166, yarn3s.hpp:161-168 `step`. -/
def step (m : Nat) (e : MRG 3) : MRG 3 :=
  let r := e.r
  let t : BitVec 64 := BitVec.ofInt 64 (e.a 0) * BitVec.ofInt 64 (r 0) + BitVec.ofInt 64 (e.a 1) * BitVec.ofInt 64 (r 1) + BitVec.ofInt 64 (e.a 2) * BitVec.ofInt 64 (r 2)
  let r := put r 2 (r 1)
  let r := put r 1 (r 0)
  let r := put r 0 (modulo m 3 t)
  { e with r := r }

/-- mrg3.hpp:226-253, yarn3.hpp:242-269, mrg3s.hpp:225-252, yarn3s.hpp:241-268: the array `b` before the loop of `jump2`. -/
def jump2Init (a : Fin 3 → Int) : Fin 3 → Fin 3 → Int :=
  square 3 [a 0, a 1, a 2, 1, 0, 0, 0, 1, 0]

/-- mrg3.hpp:226-253, yarn3.hpp:242-269, mrg3s.hpp:225-252, yarn3s.hpp:241-268 `jump2`; the loop is `MRG.sqLoop`. -/
def jump2 (m : Nat) (e : MRG 3) (s : BitVec 32) : MRG 3 :=
  let (b, c) := sqLoop m s.toNat (jump2Init e.a) (fun _ _ => 0)
  let d := if s &&& 1 = 0 then matrixVecMult b e.r m else matrixVecMult c e.r m
  let r := e.r
  let r := put r 0 (d 0)
  let r := put r 1 (d 1)
  let r := put r 2 (d 2)
  { e with r := r }

/-- mrg3.hpp:256-269, yarn3.hpp:272-285, mrg3s.hpp:255-268, yarn3s.hpp:271-284: the loop over the binary digits of `s` in `jump`. -/
def jumpLoop (m : Nat) : (fuel : Nat) → (i : BitVec 32) → (s : BitVec 64) → MRG 3 → MRG 3
  | 0, _, _, e => e
  | fuel + 1, i, s, e =>
    if s > 0 then jumpLoop m fuel (i + 1) (s >>> 1) (if s % 2 = 1 then jump2 m e i else e) else e

/-- mrg3.hpp:256-269, yarn3.hpp:272-285, mrg3s.hpp:255-268, yarn3s.hpp:271-284 `jump`, to which `discard` forwards. -/
def jump (m : Nat) (e : MRG 3) (s : BitVec 64) : MRG 3 :=
  if s < 16 then (step m)^[s.toNat] e else jumpLoop m 64 0 s e

/-- mrg3.hpp:275-312, yarn3.hpp:291-328, mrg3s.hpp:274-311, yarn3s.hpp:290-327 `backward`. -/
def backward (cuda : Bool) (m : Nat) (e : MRG 3) : Res (MRG 3) := do
  let r := e.r
  let t ←
    if e.a 2 ≠ 0 then do
      let t := r 0
      let t ← subMod t (mulMod (e.a 0) (r 1) m) m
      let t ← subMod t (mulMod (e.a 1) (r 2) m) m
      let i ← inverse cuda (e.a 2) m
      pure (mulMod t i m)
    else if e.a 1 ≠ 0 then do
      let t := r 1
      let t ← subMod t (mulMod (e.a 0) (r 2) m) m
      let i ← inverse cuda (e.a 1) m
      pure (mulMod t i m)
    else if e.a 0 ≠ 0 then do
      let t := r 2
      let i ← inverse cuda (e.a 0) m
      pure (mulMod t i m)
    else pure 0
  let r := put r 0 (r 1)
  let r := put r 1 (r 2)
  let r := put r 2 (t)
  return { e with r := r }

/-- mrg3.hpp:182-223, yarn3.hpp:198-239, mrg3s.hpp:181-222, yarn3s.hpp:197-238: the calls of `backward` at the end of `split`. -/
def backwardN (cuda : Bool) (m : Nat) : Nat → MRG 3 → Outcome (MRG 3)
  | 0, e => .ok e
  | k + 1, e =>
    match backward cuda m e with
    | .ok e' => backwardN cuda m k e'
    | .throws => .throws e
    | .ub => .ub

/-- mrg3.hpp:182-223, yarn3.hpp:198-239, mrg3s.hpp:181-222, yarn3s.hpp:197-238 `split`; the stream number is `k` here. -/
def split (cuda : Bool) (m : Nat) (e : MRG 3) (s k : BitVec 32) : Outcome (MRG 3) :=
  if cuda = false ∧ (s < 1 ∨ k ≥ s) then .throws e
  else if s > 1 then
    let e := jump m e (k.setWidth 64 + 1)
    let q0 := e.r 0
    let e := jump m e (s.setWidth 64)
    let q1 := e.r 0
    let e := jump m e (s.setWidth 64)
    let q2 := e.r 0
    let e := jump m e (s.setWidth 64)
    let q3 := e.r 0
    let e := jump m e (s.setWidth 64)
    let q4 := e.r 0
    let e := jump m e (s.setWidth 64)
    let q5 := e.r 0
    let a := ![q3, q4, q5]
    let b := square 3 [q2, q1, q0, q3, q2, q1, q4, q3, q2]
    match solve cuda b a m with
    | .throws => .throws e
    | .ub => .ub
    | .ok a =>
      let p := e.a
      let r := e.r
      let p := put p 0 (a 0)
      let p := put p 1 (a 1)
      let p := put p 2 (a 2)
      let r := put r 0 q2
      let r := put r 1 q1
      let r := put r 2 q0
      backwardN cuda m 3 ⟨p, r⟩
  else .ok e

/-- mrg3.cc:52-60, yarn3.cc:52-60, mrg3s.cc:50-58, yarn3s.cc:51-59 `seed(unsigned long)`. -/
def seed (m : Nat) (e : MRG 3) (s : BitVec 64) : MRG 3 :=
  let t := s.toInt.tmod m
  let t := if t < 0 then t + m else t
  let r := put e.r 0 t
  let r := put r 1 1
  let r := put r 2 1
  { e with r := r }

/-- mrg3.cc:62-72, yarn3.cc:62-72, mrg3s.cc:60-70, yarn3s.cc:61-71 `seed` with three arguments. -/
def seedN (m : Nat) (e : MRG 3) (s1 s2 s3 : BitVec 32) : MRG 3 :=
  let r := e.r
  let r := put r 0 (s1.toInt.tmod m)
  let r := if r 0 < 0 then put r 0 (r 0 + m) else r
  let r := put r 1 (s2.toInt.tmod m)
  let r := if r 1 < 0 then put r 1 (r 1 + m) else r
  let r := put r 2 (s3.toInt.tmod m)
  let r := if r 2 < 0 then put r 2 (r 2 + m) else r
  { e with r := r }

/-- mrg3.hpp:88-95, yarn3.hpp:90-97, mrg3s.hpp:87-94, yarn3s.hpp:89-96 `seed(gen &)`; `g i` is the value of the `i`-th call. -/
def seedGen (m : Nat) (e : MRG 3) (g : Nat → Int) : MRG 3 :=
  let r1 : Int := ((BitVec.ofInt 32 (g 0)).toNat % m : Nat)
  let r2 : Int := ((BitVec.ofInt 32 (g 1)).toNat % m : Nat)
  let r3 : Int := ((BitVec.ofInt 32 (g 2)).toNat % m : Nat)
  let r := e.r
  let r := put r 0 r1
  let r := put r 1 r2
  let r := put r 2 r3
  { e with r := r }

end N3

/-! ### The engines with four terms -/

namespace N4

/-- mrg4.hpp:163-172, yarn4.hpp:163-172 `step`. -/
def step (m : Nat) (e : MRG 4) : MRG 4 :=
  let r := e.r
  let t : BitVec 64 := BitVec.ofInt 64 (e.a 0) * BitVec.ofInt 64 (r 0) + BitVec.ofInt 64 (e.a 1) * BitVec.ofInt 64 (r 1) + BitVec.ofInt 64 (e.a 2) * BitVec.ofInt 64 (r 2) + BitVec.ofInt 64 (e.a 3) * BitVec.ofInt 64 (r 3)
  let r := put r 3 (r 2)
  let r := put r 2 (r 1)
  let r := put r 1 (r 0)
  let r := put r 0 (modulo m 4 t)
  { e with r := r }

/-- mrg4.hpp:245-280, yarn4.hpp:259-294: the array `b` before the loop of `jump2`. -/
def jump2Init (a : Fin 4 → Int) : Fin 4 → Fin 4 → Int :=
  square 4 [a 0, a 1, a 2, a 3, 1, 0, 0, 0, 0, 1, 0, 0, 0, 0, 1, 0]

/-- mrg4.hpp:245-280, yarn4.hpp:259-294 `jump2`; the loop is `MRG.sqLoop`. -/
def jump2 (m : Nat) (e : MRG 4) (s : BitVec 32) : MRG 4 :=
  let (b, c) := sqLoop m s.toNat (jump2Init e.a) (fun _ _ => 0)
  let d := if s &&& 1 = 0 then matrixVecMult b e.r m else matrixVecMult c e.r m
  let r := e.r
  let r := put r 0 (d 0)
  let r := put r 1 (d 1)
  let r := put r 2 (d 2)
  let r := put r 3 (d 3)
  { e with r := r }

/-- mrg4.hpp:283-296, yarn4.hpp:297-310: the loop over the binary digits of `s` in `jump`. -/
def jumpLoop (m : Nat) : (fuel : Nat) → (i : BitVec 32) → (s : BitVec 64) → MRG 4 → MRG 4
  | 0, _, _, e => e
  | fuel + 1, i, s, e =>
    if s > 0 then jumpLoop m fuel (i + 1) (s >>> 1) (if s % 2 = 1 then jump2 m e i else e) else e

/-- mrg4.hpp:283-296, yarn4.hpp:297-310 `jump`, to which `discard` forwards. -/
def jump (m : Nat) (e : MRG 4) (s : BitVec 64) : MRG 4 :=
  if s < 16 then (step m)^[s.toNat] e else jumpLoop m 64 0 s e

/-- mrg4.hpp:302-358, yarn4.hpp:316-372 `backward`. -/
def backward (cuda : Bool) (m : Nat) (e : MRG 4) : Res (MRG 4) := do
  let r := e.r
  let t ←
    if e.a 3 ≠ 0 then do
      let t := r 0
      let t ← subMod t (mulMod (e.a 0) (r 1) m) m
      let t ← subMod t (mulMod (e.a 1) (r 2) m) m
      let t ← subMod t (mulMod (e.a 2) (r 3) m) m
      let i ← inverse cuda (e.a 3) m
      pure (mulMod t i m)
    else if e.a 2 ≠ 0 then do
      let t := r 1
      let t ← subMod t (mulMod (e.a 0) (r 2) m) m
      let t ← subMod t (mulMod (e.a 1) (r 3) m) m
      let i ← inverse cuda (e.a 2) m
      pure (mulMod t i m)
    else if e.a 1 ≠ 0 then do
      let t := r 2
      let t ← subMod t (mulMod (e.a 0) (r 3) m) m
      let i ← inverse cuda (e.a 1) m
      pure (mulMod t i m)
    else if e.a 0 ≠ 0 then do
      let t := r 3
      let i ← inverse cuda (e.a 0) m
      pure (mulMod t i m)
    else pure 0
  let r := put r 0 (r 1)
  let r := put r 1 (r 2)
  let r := put r 2 (r 3)
  let r := put r 3 (t)
  return { e with r := r }

/-- mrg4.hpp:187-242, yarn4.hpp:201-256: the calls of `backward` at the end of `split`. -/
def backwardN (cuda : Bool) (m : Nat) : Nat → MRG 4 → Outcome (MRG 4)
  | 0, e => .ok e
  | k + 1, e =>
    match backward cuda m e with
    | .ok e' => backwardN cuda m k e'
    | .throws => .throws e
    | .ub => .ub

/-- mrg4.hpp:187-242, yarn4.hpp:201-256 `split`; the stream number is `k` here. -/
def split (cuda : Bool) (m : Nat) (e : MRG 4) (s k : BitVec 32) : Outcome (MRG 4) :=
  if cuda = false ∧ (s < 1 ∨ k ≥ s) then .throws e
  else if s > 1 then
    let e := jump m e (k.setWidth 64 + 1)
    let q0 := e.r 0
    let e := jump m e (s.setWidth 64)
    let q1 := e.r 0
    let e := jump m e (s.setWidth 64)
    let q2 := e.r 0
    let e := jump m e (s.setWidth 64)
    let q3 := e.r 0
    let e := jump m e (s.setWidth 64)
    let q4 := e.r 0
    let e := jump m e (s.setWidth 64)
    let q5 := e.r 0
    let e := jump m e (s.setWidth 64)
    let q6 := e.r 0
    let e := jump m e (s.setWidth 64)
    let q7 := e.r 0
    let a := ![q4, q5, q6, q7]
    let b := square 4 [q3, q2, q1, q0, q4, q3, q2, q1, q5, q4, q3, q2, q6, q5, q4, q3]
    match solve cuda b a m with
    | .throws => .throws e
    | .ub => .ub
    | .ok a =>
      let p := e.a
      let r := e.r
      let p := put p 0 (a 0)
      let p := put p 1 (a 1)
      let p := put p 2 (a 2)
      let p := put p 3 (a 3)
      let r := put r 0 q3
      let r := put r 1 q2
      let r := put r 2 q1
      let r := put r 3 q0
      backwardN cuda m 4 ⟨p, r⟩
  else .ok e

/-- mrg4.cc:51-60, yarn4.cc:51-60 `seed(unsigned long)`. -/
def seed (m : Nat) (e : MRG 4) (s : BitVec 64) : MRG 4 :=
  let t := s.toInt.tmod m
  let t := if t < 0 then t + m else t
  let r := put e.r 0 t
  let r := put r 1 1
  let r := put r 2 1
  let r := put r 3 1
  { e with r := r }

/-- mrg4.cc:62-76, yarn4.cc:62-76 `seed` with four arguments. -/
def seedN (m : Nat) (e : MRG 4) (s1 s2 s3 s4 : BitVec 32) : MRG 4 :=
  let r := e.r
  let r := put r 0 (s1.toInt.tmod m)
  let r := if r 0 < 0 then put r 0 (r 0 + m) else r
  let r := put r 1 (s2.toInt.tmod m)
  let r := if r 1 < 0 then put r 1 (r 1 + m) else r
  let r := put r 2 (s3.toInt.tmod m)
  let r := if r 2 < 0 then put r 2 (r 2 + m) else r
  let r := put r 3 (s4.toInt.tmod m)
  let r := if r 3 < 0 then put r 3 (r 3 + m) else r
  { e with r := r }

/-- mrg4.hpp:89-98, yarn4.hpp:89-98 `seed(gen &)`; `g i` is the value of the `i`-th call. -/
def seedGen (m : Nat) (e : MRG 4) (g : Nat → Int) : MRG 4 :=
  let r1 : Int := ((BitVec.ofInt 32 (g 0)).toNat % m : Nat)
  let r2 : Int := ((BitVec.ofInt 32 (g 1)).toNat % m : Nat)
  let r3 : Int := ((BitVec.ofInt 32 (g 2)).toNat % m : Nat)
  let r4 : Int := ((BitVec.ofInt 32 (g 3)).toNat % m : Nat)
  let r := e.r
  let r := put r 0 r1
  let r := put r 1 r2
  let r := put r 2 r3
  let r := put r 3 r4
  { e with r := r }

end N4

/-! ### The engines with five terms -/

namespace N5

/-- mrg5.hpp:164-177, yarn5.hpp:164-177, mrg5s.hpp:165-178, yarn5s.hpp:165-178 `step`. -/
def step (m : Nat) (e : MRG 5) : MRG 5 :=
  let r := e.r
  let t : BitVec 64 := BitVec.ofInt 64 (e.a 0) * BitVec.ofInt 64 (r 0) + BitVec.ofInt 64 (e.a 1) * BitVec.ofInt 64 (r 1) + BitVec.ofInt 64 (e.a 2) * BitVec.ofInt 64 (r 2) + BitVec.ofInt 64 (e.a 3) * BitVec.ofInt 64 (r 3)
  let t := if t ≥ 2 * BitVec.ofNat 64 m * BitVec.ofNat 64 m then t - 2 * BitVec.ofNat 64 m * BitVec.ofNat 64 m else t
  let t := t + BitVec.ofInt 64 (e.a 4) * BitVec.ofInt 64 (r 4)
  let r := put r 4 (r 3)
  let r := put r 3 (r 2)
  let r := put r 2 (r 1)
  let r := put r 1 (r 0)
  let r := put r 0 (modulo m 5 t)
  { e with r := r }

/-- mrg5.hpp:266-311, yarn5.hpp:280-325, mrg5s.hpp:267-312, yarn5s.hpp:281-326: the array `b` before the loop of `jump2`. -/
def jump2Init (a : Fin 5 → Int) : Fin 5 → Fin 5 → Int :=
  square 5 [a 0, a 1, a 2, a 3, a 4, 1, 0, 0, 0, 0, 0, 1, 0, 0, 0, 0, 0, 1, 0, 0, 0, 0, 0, 1, 0]

/-- mrg5.hpp:266-311, yarn5.hpp:280-325, mrg5s.hpp:267-312, yarn5s.hpp:281-326 `jump2`; the loop is `MRG.sqLoop`. -/
def jump2 (m : Nat) (e : MRG 5) (s : BitVec 32) : MRG 5 :=
  let (b, c) := sqLoop m s.toNat (jump2Init e.a) (fun _ _ => 0)
  let d := if s &&& 1 = 0 then matrixVecMult b e.r m else matrixVecMult c e.r m
  let r := e.r
  let r := put r 0 (d 0)
  let r := put r 1 (d 1)
  let r := put r 2 (d 2)
  let r := put r 3 (d 3)
  let r := put r 4 (d 4)
  { e with r := r }

/-- mrg5.hpp:314-327, yarn5.hpp:328-341, mrg5s.hpp:315-328, yarn5s.hpp:329-342: the loop over the binary digits of `s` in `jump`. -/
def jumpLoop (m : Nat) : (fuel : Nat) → (i : BitVec 32) → (s : BitVec 64) → MRG 5 → MRG 5
  | 0, _, _, e => e
  | fuel + 1, i, s, e =>
    if s > 0 then jumpLoop m fuel (i + 1) (s >>> 1) (if s % 2 = 1 then jump2 m e i else e) else e

/-- mrg5.hpp:314-327, yarn5.hpp:328-341, mrg5s.hpp:315-328, yarn5s.hpp:329-342 `jump`, to which `discard` forwards. -/
def jump (m : Nat) (e : MRG 5) (s : BitVec 64) : MRG 5 :=
  if s < 16 then (step m)^[s.toNat] e else jumpLoop m 64 0 s e

/-- mrg5.hpp:333-412, yarn5.hpp:347-426, mrg5s.hpp:334-413, yarn5s.hpp:348-427 `backward`. -/
def backward (cuda : Bool) (m : Nat) (e : MRG 5) : Res (MRG 5) := do
  let r := e.r
  let t ←
    if e.a 4 ≠ 0 then do
      let t := r 0
      let t ← subMod t (mulMod (e.a 0) (r 1) m) m
      let t ← subMod t (mulMod (e.a 1) (r 2) m) m
      let t ← subMod t (mulMod (e.a 2) (r 3) m) m
      let t ← subMod t (mulMod (e.a 3) (r 4) m) m
      let i ← inverse cuda (e.a 4) m
      pure (mulMod t i m)
    else if e.a 3 ≠ 0 then do
      let t := r 0
      let t ← subMod t (mulMod (e.a 0) (r 1) m) m
      let t ← subMod t (mulMod (e.a 1) (r 2) m) m
      let t ← subMod t (mulMod (e.a 2) (r 3) m) m
      let i ← inverse cuda (e.a 3) m
      pure (mulMod t i m)
    else if e.a 2 ≠ 0 then do
      let t := r 1
      let t ← subMod t (mulMod (e.a 0) (r 2) m) m
      let t ← subMod t (mulMod (e.a 1) (r 3) m) m
      let i ← inverse cuda (e.a 2) m
      pure (mulMod t i m)
    else if e.a 1 ≠ 0 then do
      let t := r 2
      let t ← subMod t (mulMod (e.a 0) (r 3) m) m
      let i ← inverse cuda (e.a 1) m
      pure (mulMod t i m)
    else if e.a 0 ≠ 0 then do
      let t := r 3
      let i ← inverse cuda (e.a 0) m
      pure (mulMod t i m)
    else pure 0
  let r := put r 0 (r 1)
  let r := put r 1 (r 2)
  let r := put r 2 (r 3)
  let r := put r 3 (r 4)
  let r := put r 4 (t)
  return { e with r := r }

/-- mrg5.hpp:192-263, yarn5.hpp:206-277, mrg5s.hpp:193-264, yarn5s.hpp:207-278: the calls of `backward` at the end of `split`. -/
def backwardN (cuda : Bool) (m : Nat) : Nat → MRG 5 → Outcome (MRG 5)
  | 0, e => .ok e
  | k + 1, e =>
    match backward cuda m e with
    | .ok e' => backwardN cuda m k e'
    | .throws => .throws e
    | .ub => .ub

/-- mrg5.hpp:192-263, yarn5.hpp:206-277, mrg5s.hpp:193-264, yarn5s.hpp:207-278 `split`; the stream number is `k` here. -/
def split (cuda : Bool) (m : Nat) (e : MRG 5) (s k : BitVec 32) : Outcome (MRG 5) :=
  if cuda = false ∧ (s < 1 ∨ k ≥ s) then .throws e
  else if s > 1 then
    let e := jump m e (k.setWidth 64 + 1)
    let q0 := e.r 0
    let e := jump m e (s.setWidth 64)
    let q1 := e.r 0
    let e := jump m e (s.setWidth 64)
    let q2 := e.r 0
    let e := jump m e (s.setWidth 64)
    let q3 := e.r 0
    let e := jump m e (s.setWidth 64)
    let q4 := e.r 0
    let e := jump m e (s.setWidth 64)
    let q5 := e.r 0
    let e := jump m e (s.setWidth 64)
    let q6 := e.r 0
    let e := jump m e (s.setWidth 64)
    let q7 := e.r 0
    let e := jump m e (s.setWidth 64)
    let q8 := e.r 0
    let e := jump m e (s.setWidth 64)
    let q9 := e.r 0
    let a := ![q5, q6, q7, q8, q9]
    let b := square 5 [q4, q3, q2, q1, q0, q5, q4, q3, q2, q1, q6, q5, q4, q3, q2, q7, q6, q5, q4, q3, q8, q7, q6, q5, q4]
    match solve cuda b a m with
    | .throws => .throws e
    | .ub => .ub
    | .ok a =>
      let p := e.a
      let r := e.r
      let p := put p 0 (a 0)
      let p := put p 1 (a 1)
      let p := put p 2 (a 2)
      let p := put p 3 (a 3)
      let p := put p 4 (a 4)
      let r := put r 0 q4
      let r := put r 1 q3
      let r := put r 2 q2
      let r := put r 3 q1
      let r := put r 4 q0
      backwardN cuda m 5 ⟨p, r⟩
  else .ok e

/-- mrg5.cc:49-59, yarn5.cc:49-59, mrg5s.cc:52-62, yarn5s.cc:52-62 `seed(unsigned long)`. -/
def seed (m : Nat) (e : MRG 5) (s : BitVec 64) : MRG 5 :=
  let t := s.toInt.tmod m
  let t := if t < 0 then t + m else t
  let r := put e.r 0 t
  let r := put r 1 1
  let r := put r 2 1
  let r := put r 3 1
  let r := put r 4 1
  { e with r := r }

/-- mrg5.cc:61-78, yarn5.cc:61-78, mrg5s.cc:64-81, yarn5s.cc:64-81 `seed` with five arguments. -/
def seedN (m : Nat) (e : MRG 5) (s1 s2 s3 s4 s5 : BitVec 32) : MRG 5 :=
  let r := e.r
  let r := put r 0 (s1.toInt.tmod m)
  let r := if r 0 < 0 then put r 0 (r 0 + m) else r
  let r := put r 1 (s2.toInt.tmod m)
  let r := if r 1 < 0 then put r 1 (r 1 + m) else r
  let r := put r 2 (s3.toInt.tmod m)
  let r := if r 2 < 0 then put r 2 (r 2 + m) else r
  let r := put r 3 (s4.toInt.tmod m)
  let r := if r 3 < 0 then put r 3 (r 3 + m) else r
  let r := put r 4 (s5.toInt.tmod m)
  let r := if r 4 < 0 then put r 4 (r 4 + m) else r
  { e with r := r }

/-- mrg5.hpp:88-99, yarn5.hpp:88-99, mrg5s.hpp:89-100 `seed(gen &)`; `g i` is the value of the `i`-th call. -/
def seedGen (m : Nat) (e : MRG 5) (g : Nat → Int) : MRG 5 :=
  let r1 : Int := ((BitVec.ofInt 32 (g 0)).toNat % m : Nat)
  let r2 : Int := ((BitVec.ofInt 32 (g 1)).toNat % m : Nat)
  let r3 : Int := ((BitVec.ofInt 32 (g 2)).toNat % m : Nat)
  let r4 : Int := ((BitVec.ofInt 32 (g 3)).toNat % m : Nat)
  let r5 : Int := ((BitVec.ofInt 32 (g 4)).toNat % m : Nat)
  let r := e.r
  let r := put r 0 r1
  let r := put r 1 r2
  let r := put r 2 r3
  let r := put r 3 r4
  let r := put r 4 r5
  { e with r := r }

/-- yarn5s.hpp:89-100 `seed(gen &)`. -/
def seedGenYarn5s (m : Nat) (e : MRG 5) (g : Nat → Int) : MRG 5 :=
  let r1 : Int := (BitVec.ofInt 32 (g 0)).toInt.tmod m
  let r2 : Int := (BitVec.ofInt 32 (g 1)).toInt.tmod m
  let r3 : Int := (BitVec.ofInt 32 (g 2)).toInt.tmod m
  let r4 : Int := (BitVec.ofInt 32 (g 3)).toInt.tmod m
  let r5 : Int := (BitVec.ofInt 32 (g 4)).toInt.tmod m
  let r := e.r
  let r := put r 0 r1
  let r := put r 1 r2
  let r := put r 2 r3
  let r := put r 3 r4
  let r := put r 4 r5
  { e with r := r }

end N5

/-! ### The engines -/

/-- `step` of the engines: see `N2.step` to `N5.step`; mrg2.hpp:59 and the other headers have the modulus. -/
def step : (K : Kind) → MRG K.order → MRG K.order
  | .k2, e => N2.step (Kind.modulus .k2) e
  | .k3, e => N3.step (Kind.modulus .k3) e
  | .k3s, e => N3.step (Kind.modulus .k3s) e
  | .k4, e => N4.step (Kind.modulus .k4) e
  | .k5, e => N5.step (Kind.modulus .k5) e
  | .k5s, e => N5.step (Kind.modulus .k5s) e

/-- `jump2` of the engines: see `N2.jump2` to `N5.jump2`. -/
def jump2 : (K : Kind) → MRG K.order → BitVec 32 → MRG K.order
  | .k2, e, s => N2.jump2 (Kind.modulus .k2) e s
  | .k3, e, s => N3.jump2 (Kind.modulus .k3) e s
  | .k3s, e, s => N3.jump2 (Kind.modulus .k3s) e s
  | .k4, e, s => N4.jump2 (Kind.modulus .k4) e s
  | .k5, e, s => N5.jump2 (Kind.modulus .k5) e s
  | .k5s, e, s => N5.jump2 (Kind.modulus .k5s) e s

/-- `jump` and `discard` of the engines: see `N2.jump` to `N5.jump`. -/
def jump : (K : Kind) → MRG K.order → BitVec 64 → MRG K.order
  | .k2, e, s => N2.jump (Kind.modulus .k2) e s
  | .k3, e, s => N3.jump (Kind.modulus .k3) e s
  | .k3s, e, s => N3.jump (Kind.modulus .k3s) e s
  | .k4, e, s => N4.jump (Kind.modulus .k4) e s
  | .k5, e, s => N5.jump (Kind.modulus .k5) e s
  | .k5s, e, s => N5.jump (Kind.modulus .k5s) e s

/-- `backward` of the engines: see `N2.backward` to `N5.backward`. -/
def backward (cuda : Bool) : (K : Kind) → MRG K.order → Res (MRG K.order)
  | .k2, e => N2.backward cuda (Kind.modulus .k2) e
  | .k3, e => N3.backward cuda (Kind.modulus .k3) e
  | .k3s, e => N3.backward cuda (Kind.modulus .k3s) e
  | .k4, e => N4.backward cuda (Kind.modulus .k4) e
  | .k5, e => N5.backward cuda (Kind.modulus .k5) e
  | .k5s, e => N5.backward cuda (Kind.modulus .k5s) e

/-- `split` of the engines: see `N2.split` to `N5.split`. -/
def split (cuda : Bool) : (K : Kind) → MRG K.order → BitVec 32 → BitVec 32 → Outcome (MRG K.order)
  | .k2, e, s, k => N2.split cuda (Kind.modulus .k2) e s k
  | .k3, e, s, k => N3.split cuda (Kind.modulus .k3) e s k
  | .k3s, e, s, k => N3.split cuda (Kind.modulus .k3s) e s k
  | .k4, e, s, k => N4.split cuda (Kind.modulus .k4) e s k
  | .k5, e, s, k => N5.split cuda (Kind.modulus .k5) e s k
  | .k5s, e, s, k => N5.split cuda (Kind.modulus .k5s) e s k

/-- `seed(unsigned long)` of the engines: see `N2.seed` to `N5.seed`. -/
def seed : (K : Kind) → MRG K.order → BitVec 64 → MRG K.order
  | .k2, e, s => N2.seed (Kind.modulus .k2) e s
  | .k3, e, s => N3.seed (Kind.modulus .k3) e s
  | .k3s, e, s => N3.seed (Kind.modulus .k3s) e s
  | .k4, e, s => N4.seed (Kind.modulus .k4) e s
  | .k5, e, s => N5.seed (Kind.modulus .k5) e s
  | .k5s, e, s => N5.seed (Kind.modulus .k5s) e s

/-- `seed(gen &)` of the engines but yarn5s: see `N2.seedGen` to `N5.seedGen`. -/
def seedGen : (K : Kind) → MRG K.order → (Nat → Int) → MRG K.order
  | .k2, e, g => N2.seedGen (Kind.modulus .k2) e g
  | .k3, e, g => N3.seedGen (Kind.modulus .k3) e g
  | .k3s, e, g => N3.seedGen (Kind.modulus .k3s) e g
  | .k4, e, g => N4.seedGen (Kind.modulus .k4) e g
  | .k5, e, g => N5.seedGen (Kind.modulus .k5) e g
  | .k5s, e, g => N5.seedGen (Kind.modulus .k5s) e g

/-- `seed` with one argument for every term: see `N2.seedN` to `N5.seedN`. -/
def seedN : (K : Kind) → MRG K.order → (Fin K.order → BitVec 32) → MRG K.order
  | .k2, e, s => N2.seedN (Kind.modulus .k2) e (s 0) (s 1)
  | .k3, e, s => N3.seedN (Kind.modulus .k3) e (s 0) (s 1) (s 2)
  | .k3s, e, s => N3.seedN (Kind.modulus .k3s) e (s 0) (s 1) (s 2)
  | .k4, e, s => N4.seedN (Kind.modulus .k4) e (s 0) (s 1) (s 2) (s 3)
  | .k5, e, s => N5.seedN (Kind.modulus .k5) e (s 0) (s 1) (s 2) (s 3) (s 4)
  | .k5s, e, s => N5.seedN (Kind.modulus .k5s) e (s 0) (s 1) (s 2) (s 3) (s 4)

/-- mrg2.hpp:165-168, mrg3.hpp:170-173, mrg3s.hpp:169-172, mrg4.hpp:175-178, mrg5.hpp:180-183, mrg5s.hpp:181-184
`operator()()` of the mrg engines. -/
def call (K : Kind) (e : MRG K.order) : Int × MRG K.order :=
  let e := step K e
  (e.r 0, e)

/-- yarn2.hpp:173-180, yarn3.hpp:178-185, yarn3s.hpp:177-184, yarn4.hpp:181-188, yarn5.hpp:186-193, yarn5s.hpp:187-194: the loop
`while (n > 0)`; `n` is an `int32_t` and halved in every turn, so that 32 turns are enough. -/
def powerLoop (m : Nat) : (fuel : Nat) → (p t n : Int) → Int
  | 0, p, _, _ => p
  | fuel + 1, p, t, n =>
    if n > 0 then
      let p := if n.tmod 2 = 1 then modulo m 1 (BitVec.ofInt 64 (p * t)) else p
      let t := modulo m 1 (BitVec.ofInt 64 (t * t))
      powerLoop m fuel p t (n.tdiv 2)
    else p

/-- yarn2.hpp:167-184, yarn3.hpp:172-189, yarn3s.hpp:171-188, yarn4.hpp:175-192, yarn5.hpp:180-197, yarn5s.hpp:181-198
`operator()()` of the yarn engines; `none`: access outside the table of powers. -/
def callYarn (cuda : Bool) (K : Kind) (e : MRG K.order) : Option Int × MRG K.order :=
  let e := step K e
  if cuda then
    if e.r 0 = 0 then (some 0, e)
    else (some (powerLoop K.modulus 32 1 K.gen (e.r 0)), e)
  else (if e.r 0 = 0 then some 0 else powerApply K.modulus K.gen (BitVec.ofInt 32 (e.r 0)), e)

end Trng.MRGWritten
