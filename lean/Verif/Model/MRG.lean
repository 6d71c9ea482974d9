import Verif.Model.IntMath
import Mathlib.Logic.Function.Iterate
/-
Model of the multiple recursive generators trng/mrg2.hpp, mrg3.hpp, mrg3s.hpp, mrg4.hpp, mrg5.hpp,
mrg5s.hpp (and .cc) and of trng/yarn2.hpp, yarn3.hpp, yarn3s.hpp, yarn4.hpp, yarn5.hpp, yarn5s.hpp
(and .cc).  The twelve sources are the same text up to the number of terms `n`, the modulus, the
built-in parameters and the output function; the model has `n` and the modulus `m` as parameters and
replaces code that the sources write out term by term (`S.r[2] = S.r[1]; S.r[1] = S.r[0]; ...`) by
the corresponding loop.  Line numbers refer to mrg3.hpp where all sources agree, and to mrg5.hpp for
what is particular to the five-term engines.

`int32_t` values are `Int` (all stored values are results of operations that fit `int32_t`).
-/
namespace Trng
open IntMath

/-- The six pairs of engines (`mrgX`, `yarnX`). -/
inductive Kind where
  | k2 | k3 | k3s | k4 | k5 | k5s
deriving DecidableEq, Repr

namespace Kind

/-- number of terms of the recurrence: mrg2.hpp etc., `mrg_parameter<result_type, n, .>` -/
def order : Kind → Nat
  | k2 => 2 | k3 => 3 | k3s => 3 | k4 => 4 | k5 => 5 | k5s => 5

/-- mrg2.hpp, mrg3.hpp, mrg4.hpp, mrg5.hpp, mrg3s.hpp, mrg5s.hpp `modulus` (the yarn engines have the
same). -/
def modulus : Kind → Nat
  | k3s => 2147462579 | k5s => 2147461007 | _ => 2147483647

/-- yarn2.hpp, yarn3.hpp, yarn4.hpp, yarn5.hpp, yarn3s.hpp, yarn5s.hpp `gen` -/
def gen : Kind → Nat
  | k3s => 1616076847 | k5s => 889744251 | _ => 123567893

/-- the built-in parameter sets: mrg2.cc:40-41, mrg3.cc:40-43, mrg3s.cc:40-41, mrg4.cc:40-42,
mrg5.cc:40, mrg5s.cc:40-43; the yarn engines have the same.  The first one is the default. -/
def paramLists : Kind → List (List Int)
  | k2 => [[1498809829, 1160990996], [46325, 1084587]]
  | k3 => [[2021422057, 1826992351, 1977753457], [1476728729, 0, 1155643113], [65338, 0, 64636]]
  | k3s => [[2025213985, 1112953677, 2038969601], [1287767370, 1045931779, 58150106]]
  | k4 => [[2001982722, 1412284257, 1155380217, 1668339922], [64886, 0, 0, 64322]]
  | k5 => [[107374182, 0, 0, 0, 104480]]
  | k5s => [[1053223373, 1530818118, 1612122482, 133497989, 573245311],
            [2068619238, 2138332912, 671754166, 1442240992, 1526958817]]

/-- no engine is empty -/
instance (K : Kind) : NeZero K.order := ⟨by cases K <;> decide⟩

end Kind

/-- mrg3.hpp:147-148: the members `P` (mrg_parameter.hpp:45 `a[n]`) and `S` (mrg_status.hpp:45
`r[n]`); `r 0` is the newest value. -/
@[ext] structure MRG (n : Nat) where
  a : Fin n → Int
  r : Fin n → Int

namespace MRG

variable {n : Nat}

/-- mrg3.hpp:161-163: the products `a[i] * r[i]` in `uint64_t`. -/
def terms (e : MRG n) : List (BitVec 64) :=
  (List.finRange n).map fun i => BitVec.ofInt 64 (e.a i) * BitVec.ofInt 64 (e.r i)

/-- mrg3.hpp:161-163; mrg5.hpp:165-171 for the five-term engines (`2 m^2` is subtracted before the
last term is added). -/
def stepSum (m : Nat) (e : MRG n) : BitVec 64 :=
  if n = 5 then
    let t := (e.terms.take 4).sum
    let t := if t ≥ BitVec.ofNat 64 (2 * m * m) then t - BitVec.ofNat 64 (2 * m * m) else t
    t + (e.terms.drop 4).sum
  else e.terms.sum

/-- mrg3.hpp:160-167 `step`. -/
def step (m : Nat) (e : MRG n) : MRG n :=
  let t := e.stepSum m
  { e with r := fun i => if i.val = 0 then modulo m n t else e.r ⟨i.val - 1, by omega⟩ }

/-- mrg3.hpp:170-173 `mrg3::operator()()`. -/
def call [NeZero n] (m : Nat) (e : MRG n) : Int × MRG n :=
  let e := e.step m
  (e.r 0, e)

/-- yarn3.hpp:172-189 `yarn3::operator()()` (the branch without CUDA); `none`: access outside the
table of powers. -/
def callYarn [NeZero n] (m g : Nat) (e : MRG n) : Option Int × MRG n :=
  let e := e.step m
  (if e.r 0 = 0 then some 0 else powerApply m g (BitVec.ofInt 32 (e.r 0)), e)

/-! ### jump2, jump, discard -/

/-- mrg3.hpp:227-236: the initial matrix `b`. -/
def companion (a : Fin n → Int) : Fin n → Fin n → Int :=
  fun i j => if i.val = 0 then a j else if j.val + 1 = i.val then 1 else 0

/-- mrg3.hpp:237-243: the loop; the argument counts the remaining iterations `s - i`. -/
def sqLoop (m : Nat) : Nat → (b c : Fin n → Fin n → Int) →
    (Fin n → Fin n → Int) × (Fin n → Fin n → Int)
  | 0, b, c => (b, c)
  | 1, b, _ => (b, matrixMult b b m)
  | k + 2, b, _ =>
    let c := matrixMult b b m
    sqLoop m k (matrixMult c c m) c

/-- mrg3.hpp:226-253 `jump2`. -/
def jump2 (m : Nat) (e : MRG n) (s : BitVec 32) : MRG n :=
  let (b, c) := sqLoop m s.toNat (companion e.a) (fun _ _ => 0)
  { e with r := matrixVecMult (if s &&& 1 = 0 then b else c) e.r m }

/-- mrg3.hpp:261-267: the loop over the binary digits of `s` (at most 64). -/
def jumpLoop (m : Nat) : (fuel : Nat) → (i : BitVec 32) → (s : BitVec 64) → MRG n → MRG n
  | 0, _, _, e => e
  | fuel + 1, i, s, e =>
    if s > 0 then jumpLoop m fuel (i + 1) (s >>> 1) (if s % 2 = 1 then e.jump2 m i else e) else e

/-- mrg3.hpp:256-269 `jump`. -/
def jump (m : Nat) (e : MRG n) (s : BitVec 64) : MRG n :=
  if s < 16 then (step m)^[s.toNat] e else jumpLoop m 64 0 s e

/-- mrg3.hpp:272 `discard`. -/
def discard (m : Nat) (e : MRG n) (s : BitVec 64) : MRG n := e.jump m s

/-! ### backward -/

/-- `S.r[i]`; `ub` outside the array. -/
def rd (r : Fin n → Int) (i : Nat) : Res Int := if h : i < n then .ok (r ⟨i, h⟩) else .ub

/-- mrg3.hpp:278, 292, 302: the index of the value `backward` starts with if `a[k]` is the last
non-zero coefficient.  The five-term engines differ: mrg5.hpp:336, 358, 376, 390, 400. -/
def win (n k : Nat) : Nat := if n = 5 ∧ k < 4 then 3 - k else n - 1 - k

/-- mrg3.hpp:276-308 `backward`: the new value `t`. -/
def backValue (m : Nat) (e : MRG n) : Res Int :=
  match (List.finRange n).reverse.find? (fun k => e.a k ≠ 0) with
  | none => .ok 0
  | some k => do
    let t ← rd e.r (win n k)
    let t ← (List.finRange k.val).foldlM (fun t (j : Fin k.val) => do
      let x ← rd e.r (win n k + 1 + j.val)
      subMod t (mulMod (e.a ⟨j.val, by omega⟩) x m) m) t
    let i ← moduloInverse (e.a k) m
    return mulMod t i m

/-- mrg3.hpp:275-312 `backward`. -/
def backward (m : Nat) (e : MRG n) : Res (MRG n) := do
  let t ← e.backValue m
  return { e with r := fun i => if h : i.val + 1 < n then e.r ⟨i.val + 1, h⟩ else t }

/-- mrg3.hpp:220-221: `backward` is called `k` times. -/
def backwardN (m : Nat) : Nat → MRG n → Outcome (MRG n)
  | 0, e => .ok e
  | k + 1, e =>
    match e.backward m with
    | .ok e' => backwardN m k e'
    | .throws => .throws e
    | .ub => .ub

/-! ### split -/

/-- mrg3.hpp:188-199: the engine after `jump(n + 1)` and `i` times `jump(s)`. -/
def splitAt (m : Nat) (e : MRG n) (s k : BitVec 32) (i : Nat) : MRG n :=
  (fun e => e.jump m (s.setWidth 64))^[i] (e.jump m (k.setWidth 64 + 1))

/-- mrg3.hpp:182-223 `split`; the stream number is `k` here. -/
def split [NeZero n] (m : Nat) (e : MRG n) (s k : BitVec 32) : Outcome (MRG n) :=
  if s < 1 ∨ k ≥ s then .throws e
  else if s > 1 then
    let q := fun i => (e.splitAt m s k i).r 0
    match gauss (fun i j : Fin n => q (n - 1 + i.val - j.val)) (fun i => q (n + i.val)) m with
    | .throws => .throws (e.splitAt m s k (2 * n - 1))
    | .ub => .ub
    | .ok x => backwardN m n ⟨x, fun i => q (n - 1 - i.val)⟩
  else .ok e

/-! ### construction and seeding -/

/-- mrg_status.hpp:48-52: the default status. -/
def status0 : Fin n → Int := fun i => if i.val = 0 then 0 else 1

/-- `x % m` for `int32_t`/`int64_t`, then `if (x < 0) x += m;` (mrg3.cc:63-71, 53-57). -/
def reduceSigned (m : Nat) (x : Int) : Int := if x.tmod m < 0 then x.tmod m + m else x.tmod m

/-- mrg3.cc:52-60 `seed(unsigned long)` (`unsigned long` and the conversion to `int64_t` as on a
64-bit system). -/
def seed (m : Nat) (e : MRG n) (s : BitVec 64) : MRG n :=
  { e with r := fun i => if i.val = 0 then reduceSigned m s.toInt else 1 }

/-- mrg3.cc:62-72 `seed(s1, ..., sn)`. -/
def seedN (m : Nat) (e : MRG n) (s : Fin n → BitVec 32) : MRG n :=
  { e with r := fun i => reduceSigned m (s i).toInt }

/-- mrg3.hpp:88-96 `seed(gen &)`; `g i` is the value of the `i`-th call of the generator, as an
integer. -/
def seedGen (m : Nat) (e : MRG n) (g : Nat → Int) : MRG n :=
  { e with r := fun i => ((BitVec.ofInt 32 (g i)).toNat % m : Nat) }

/-- yarn5s.hpp:89-100 `seed(gen &)` of yarn5s (casts to `int32_t` instead of `uint32_t`). -/
def seedGenYarn5s (m : Nat) (e : MRG n) (g : Nat → Int) : MRG n :=
  { e with r := fun i => (BitVec.ofInt 32 (g i)).toInt.tmod m }

/-- A built-in parameter set as array. -/
def params (l : List Int) : Fin n → Int := fun i => l.getD i 0

/-- mrg3.cc:46, 50: the default-constructed engine, which is also the result of `seed()`. -/
def init (K : Kind) : MRG K.order := ⟨params (K.paramLists.headD []), status0⟩

end MRG
end Trng
