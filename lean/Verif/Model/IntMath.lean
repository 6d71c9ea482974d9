import Verif.Model.Basic
import Mathlib.Logic.Function.Basic

/-
Model of trng/int_math.hpp.

`int32_t`/`int64_t` values are `Int`; an operation on `int32_t` whose exact result does not fit is
undefined (`Res.ub`).  Products of two `int32_t` values converted to `int64_t` always fit, so these
products carry no check.  `/` and `%` truncate (`Int.tdiv`, `Int.tmod`).  Square arrays `x[n*n]`
are functions of row and column (`x[n*i+j]` is `x i j`), so an index is in bounds exactly if row and
column are below `n`, which holds by typing (`Fin n`).
-/
namespace Trng

/-- The result of a C++ function without object state: a value, an exception, or undefined
behaviour (which includes running for ever). -/
inductive Res (α : Type) where
  | ok : α → Res α
  | throws : Res α
  | ub : Res α
deriving DecidableEq, Repr

namespace Res

/-- sequencing -/
def bind {α β : Type} : Res α → (α → Res β) → Res β
  | ok a, f => f a
  | throws, _ => throws
  | ub, _ => ub

instance : Monad Res where
  pure := ok
  bind := bind

end Res

namespace IntMath

/-- a signed 32-bit arithmetic result: undefined if it does not fit -/
def i32 (x : Int) : Res Int :=
  if -2147483648 ≤ x ∧ x ≤ 2147483647 then .ok x else .ub

/-- `static_cast<int32_t>` of an integer (modulo 2^32) -/
def toI32 (x : Int) : Int := (BitVec.ofInt 32 x).toInt

/-! ### powers of two -/

/-- int_math.hpp:57-59 `log2_floor`; the recursion halves `x`, so `x` levels are enough. -/
def log2FloorF : (fuel : Nat) → Nat → Nat
  | 0, _ => 0
  | fuel + 1, x => if x ≤ 1 then 0 else 1 + log2FloorF fuel (x / 2)

/-- int_math.hpp:57-59 `log2_floor`. -/
def log2Floor (x : Nat) : Nat := log2FloorF x x

/-- int_math.hpp:52-54 `pow2`, for a result that fits the type. -/
def pow2 (x : Nat) : Nat := 1 <<< x

/-- int_math.hpp:62-64 `log2_ceil` (`pow2(log2_floor(x)) <= x` always fits). -/
def log2Ceil (x : Nat) : Nat :=
  if pow2 (log2Floor x) < x then log2Floor x + 1 else log2Floor x

/-- int_math.hpp:68-70 `ceil2` for an unsigned type of `w` bits (arithmetic modulo `2^w`). -/
def ceil2F (w : Nat) : (fuel : Nat) → Nat → Nat
  | 0, x => x
  | fuel + 1, x => if x ≤ 1 then x else 2 * ceil2F w fuel ((x + 1) % 2 ^ w / 2) % 2 ^ w

/-- int_math.hpp:68-70 `ceil2`. -/
def ceil2 (w x : Nat) : Nat := ceil2F w x x

/-- int_math.hpp:74-79 `mask` for an unsigned type of `w` bits. -/
def mask (w x : Nat) : Nat :=
  if x = 2 ^ w - 1 then x else (ceil2 w ((x + 1) % 2 ^ w) + (2 ^ w - 1)) % 2 ^ w

/-! ### matrix products -/

/-- int_math.hpp:88-92, 105-109: the inner loop, over the products `a[.][k]*b[k][.]`:
`t += x % m; if (t >= m) t -= m;`. -/
def dotLoop (m : Int) (t : Int) (xs : List Int) : Int :=
  xs.foldl (fun t x =>
    let t := t + x.tmod m
    if t ≥ m then t - m else t) t

/-- int_math.hpp:84-95 `matrix_vec_mult`. -/
def matrixVecMult {n : Nat} (a : Fin n → Fin n → Int) (b : Fin n → Int) (m : Int) : Fin n → Int :=
  fun j => toI32 (dotLoop m 0 ((List.finRange n).map fun k => a j k * b k))

/-- int_math.hpp:100-112 `matrix_mult` (the result array is distinct from the arguments in all
calls). -/
def matrixMult {n : Nat} (a b : Fin n → Fin n → Int) (m : Int) : Fin n → Fin n → Int :=
  fun j i => toI32 (dotLoop m 0 ((List.finRange n).map fun k => a j k * b k i))

/-! ### modular inverse -/

/-- int_math.hpp:124-132: the loop `while (a > 1)`.  Each iteration makes `a` smaller, `fuel = a`
is enough; `ub` if it were not.  Result: the final `a` and `f`. -/
def modInvLoop : (fuel : Nat) → (a m1 flast f : Int) → Res (Int × Int)
  | 0, _, _, _, _ => .ub
  | fuel + 1, a, m1, flast, f =>
    if a > 1 then do
      let temp := m1.tmod a
      let q := m1.tdiv a
      let qf ← i32 (q * f)
      let f' ← i32 (flast - qf)
      modInvLoop fuel temp a f f'
    else .ok (a, f)

/-- int_math.hpp:117-138 `modulo_inverse` (host build). -/
def moduloInverse (a m : Int) : Res Int :=
  if a ≤ 0 ∨ m ≤ 1 then .throws
  else do
    let (a', f) ← modInvLoop (a.toNat + 1) a m 0 1
    if a' = 0 then .throws
    else if f ≥ 0 then .ok f else i32 (f + m)

/-! ### Gaussian elimination -/

/-- The arrays `a`, `b`, `p` of `gauss`. -/
structure GState (n : Nat) where
  a : Fin n → Fin n → Int
  b : Fin n → Int
  p : Fin n → Fin n

/-- `a[r][c] = v` -/
def GState.setA {n : Nat} (s : GState n) (r c : Fin n) (v : Int) : GState n :=
  { s with a := Function.update s.a r (Function.update (s.a r) c v) }

/-- `b[r] = v` -/
def GState.setB {n : Nat} (s : GState n) (r : Fin n) (v : Int) : GState n :=
  { s with b := Function.update s.b r v }

/-- `static_cast<int32_t>((static_cast<int64_t>(x) * static_cast<int64_t>(y)) % m)` -/
def mulMod (x y m : Int) : Int := toI32 ((x * y).tmod m)

/-- `x -= y; if (x < 0) x += m;` -/
def subMod (x y m : Int) : Res Int := do
  let d ← i32 (x - y)
  if d < 0 then i32 (d + m) else .ok d

/-- the indices `i, ..., n-1` -/
def fromIdx {n : Nat} (i : Fin n) : List (Fin n) := (List.finRange n).filter (i ≤ ·)

/-- the indices `i+1, ..., n-1` -/
def afterIdx {n : Nat} (i : Fin n) : List (Fin n) := (List.finRange n).filter (i < ·)

/-- int_math.hpp:152-162: exchange of rows if the pivot vanishes. -/
def gaussPivot {n : Nat} (s : GState n) (i : Fin n) : GState n :=
  if s.a (s.p i) i = 0 then
    match (afterIdx i).find? (fun j => s.a (s.p j) i ≠ 0) with
    | some j => { s with p := Function.update (Function.update s.p i (s.p j)) j (s.p i) }
    | none => s
  else s

/-- int_math.hpp:168-172: normalise row `p[i]` by the factor `t`. -/
def gaussScale {n : Nat} (m t : Int) (s : GState n) (i : Fin n) : GState n :=
  let s := (fromIdx i).foldl (fun s j => s.setA (s.p i) j (mulMod (s.a (s.p i) j) t m)) s
  s.setB (s.p i) (mulMod (s.b (s.p i)) t m)

/-- int_math.hpp:176-182: the loop over `k` for row `p[j]`. -/
def gaussRow {n : Nat} (m t : Int) (i j : Fin n) (s : GState n) : Res (GState n) :=
  (fromIdx i).foldlM (fun s k => do
    let x := mulMod (s.a (s.p j) k) t m
    let x ← subMod x (s.a (s.p i) k) m
    return s.setA (s.p j) k x) s

/-- int_math.hpp:173-189: eliminate column `i` from row `p[j]`. -/
def gaussElimRow {n : Nat} (m : Int) (i : Fin n) (s : GState n) (j : Fin n) : Res (GState n) :=
  if s.a (s.p j) i ≠ 0 then do
    let t ← moduloInverse (s.a (s.p j) i) m
    let s ← gaussRow m t i j s
    let y := mulMod (s.b (s.p j)) t m
    let y ← subMod y (s.b (s.p i)) m
    return s.setB (s.p j) y
  else .ok s

/-- int_math.hpp:150-190: the main loop, over the remaining columns; `rank` is counted. -/
def gaussTriangular {n : Nat} (m : Int) : List (Fin n) → (rank : Nat) → GState n →
    Res (Nat × GState n)
  | [], rank, s => .ok (rank, s)
  | i :: is, rank, s =>
    let s := gaussPivot s i
    if s.a (s.p i) i = 0 then .ok (rank, s)
    else do
      let t ← moduloInverse (s.a (s.p i) i) m
      let s := gaussScale m t s i
      let s ← (afterIdx i).foldlM (gaussElimRow m i) s
      gaussTriangular m is (rank + 1) s

/-- int_math.hpp:193-196: the check for a solution. -/
def gaussCheck {n : Nat} (rank : Nat) (s : GState n) : Res Unit :=
  if ∃ i : Fin n, rank ≤ i.val ∧ s.b (s.p i) ≠ 0 then .throws else .ok ()

/-- int_math.hpp:199-205: back substitution (for `i = n-1` the inner loop is empty). -/
def gaussBack {n : Nat} (m : Int) (s : GState n) : Res (GState n) :=
  (List.finRange n).reverse.foldlM (fun s i =>
    (afterIdx i).foldlM (fun s j => do
      let y ← subMod (s.b (s.p i)) (mulMod (s.a (s.p i) j) (s.b (s.p j)) m) m
      return s.setB (s.p i) y) s) s

/-- int_math.hpp:143-211 `gauss`: the final contents of `b`. -/
def gauss {n : Nat} (a : Fin n → Fin n → Int) (b : Fin n → Int) (m : Int) : Res (Fin n → Int) := do
  let (rank, s) ← gaussTriangular m (List.finRange n) 0 ⟨a, b, id⟩
  gaussCheck rank s
  let s ← gaussBack m s
  return fun i => s.b (s.p i)

/-! ### reduction modulo a constant -/

/-- int_math.hpp:224, 250, 280 `e`. -/
def modE (m : Nat) : Nat := log2Ceil m
/-- int_math.hpp:225, 251, 281 `k` (non-negative and less than 2^31 for `0 < m < 2^31`). -/
def modK (m : Nat) : Nat := 2 ^ modE m - m
/-- int_math.hpp:226, 252, 282 `mask`. -/
def modMask (m : Nat) : Nat := 2 ^ modE m - 1

/-- `if (y >= c*m) y -= c*m;` on `uint64_t`. -/
def condSub (c m : Nat) (y : BitVec 64) : BitVec 64 :=
  if y ≥ BitVec.ofNat 64 (c * m) then y - BitVec.ofNat 64 (c * m) else y

/-- int_math.hpp:222-310 `modulo_helper<m, h>::modulo`, `h = 0, 1, 2`. -/
def moduloHelper (m h : Nat) (x : BitVec 64) : Int :=
  let mask : BitVec 64 := BitVec.ofNat 64 (modMask m)
  let e := modE m
  let k : BitVec 64 := BitVec.ofNat 64 (modK m)
  if modMask m = m then
    let y := (x &&& mask) + (x >>> e)
    let y := match h with
      -- the variable is a `uint32_t` here
      | 0 => condSub 1 m ((y.setWidth 32).setWidth 64)
      | 1 => condSub 1 m (condSub 2 m y)
      | _ => condSub 1 m (condSub 2 m (condSub 4 m y))
    (y.setWidth 32).toInt
  else if modK m * (modK m + 2) ≤ m then
    let x := (x &&& mask) + (x >>> e) * k
    let x := (x &&& mask) + (x >>> e) * k
    let x := match h with
      | 0 => condSub 1 m x
      | 1 => condSub 1 m (condSub 2 m x)
      | _ => condSub 1 m (condSub 2 m (condSub 4 m x))
    (x.setWidth 32).toInt
  else ((x % BitVec.ofNat 64 m).setWidth 32).toInt

/-- int_math.hpp:316-320 `modulo<m, r>`; only `log2_floor(r) = 0, 1, 2` has a helper class. -/
def modulo (m r : Nat) (x : BitVec 64) : Int := moduloHelper m (log2Floor r) x

/-! ### table of powers -/

/-- int_math.hpp:330-335: the loop of `pow`; `p`, `t` are `int64_t`, their product is passed as
`uint64_t`.  `n` halves in every iteration, 32 iterations are enough. -/
def powLoop (m : Nat) : (fuel : Nat) → (p t : Int) → (n : Nat) → Int
  | 0, p, _, _ => p
  | fuel + 1, p, t, n =>
    if n > 0 then
      powLoop m fuel (if n % 2 = 1 then modulo m 1 (BitVec.ofInt 64 (p * t)) else p)
        (modulo m 1 (BitVec.ofInt 64 (t * t))) (n / 2)
    else p

/-- int_math.hpp:328-337 `power<m, b>::pow`. -/
def powerPow (m b : Nat) (n : Nat) : Int := powLoop m 32 1 b n

/-- int_math.hpp:344-349: `b_power0[i]`, a table with 0x10000 entries. -/
def bPower0 (m b : Nat) (i : Int) : Option Int :=
  if 0 ≤ i ∧ i < 0x10000 then some (powerPow m b i.toNat) else none

/-- int_math.hpp:344-349: `b_power1[i]`, a table with 0x08000 entries. -/
def bPower1 (m b : Nat) (i : Int) : Option Int :=
  if 0 ≤ i ∧ i < 0x08000 then some (powerPow m b (i.toNat * 0x10000)) else none

/-- int_math.hpp:350-353 `power<m, b>::operator()`; `n` is an `int32_t`; `none`: access outside a
table. -/
def powerApply (m b : Nat) (n : BitVec 32) : Option Int := do
  let x ← bPower1 m b (n.sshiftRight 16).toInt
  let y ← bPower0 m b (n &&& 0xffff#32).toInt
  return modulo m 1 (BitVec.ofInt 64 x * BitVec.ofInt 64 y)

end IntMath
end Trng
