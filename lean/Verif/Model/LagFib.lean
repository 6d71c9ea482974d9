import Verif.Model.LinAlg
import Verif.Model.IntMath
import Verif.Model.Minstd

/-
Model of trng/lagfib2xor.hpp, trng/lagfib2plus.hpp, trng/lagfib4xor.hpp, trng/lagfib4plus.hpp.

The four class templates have the same text up to the operation (`^` or `+`) and the number of
lags.  `w` is the number of bits of `integer_type`.  An access to the ring array outside its bounds
is undefined and gives `none`.
-/
namespace Trng.LagFib
open LinAlg IntMath

/-- The operation that combines the lagged values: lagfib2xor.hpp:243 and lagfib4xor.hpp:246-247
use `^`, lagfib2plus.hpp:241 and lagfib4plus.hpp:243-244 use `+`. -/
inductive Op where
  | xor
  | plus
deriving DecidableEq, Repr

/-- One application of the operation. -/
def Op.ap {w : Nat} : Op → BitVec w → BitVec w → BitVec w
  | .xor, a, b => a ^^^ b
  | .plus, a, b => a + b

/-- The template arguments: the operation, the lags but the last (`A`, or `A`, `B`, `C`) and the
last lag (`B`, or `D`), which fixes the size of the ring. -/
structure Params where
  op : Op
  lags : List Nat
  last : Nat
deriving DecidableEq, Repr

/-- All lags in the order of the template arguments. -/
def Params.all (P : Params) : List Nat := P.lags ++ [P.last]

/-- lagfib2xor.hpp:71, 73 (lagfib2plus.hpp:71, lagfib4xor.hpp:72, lagfib4plus.hpp:71): the number
of elements of the array `r`. -/
def Params.size (P : Params) : Nat := ceil2 32 P.last

/-- lagfib2xor.hpp:158, 240: the index mask. -/
def Params.mask (P : Params) : BitVec 32 := BitVec.ofNat 32 (IntMath.mask 32 P.last)

end LagFib

/-- lagfib2xor.hpp:70-72 `status_type`. -/
structure LagFib (P : LagFib.Params) (w : Nat) where
  r : Fin P.size → BitVec w := fun _ => 0
  index : BitVec 32 := 0

namespace LagFib
open LinAlg IntMath

variable {P : Params} {w : Nat}

/-- reading `S.r[i]` -/
def read (e : LagFib P w) (i : BitVec 32) : Option (BitVec w) :=
  if h : i.toNat < P.size then some (e.r ⟨i.toNat, h⟩) else none

/-- assigning `S.r[i] = v` -/
def write (e : LagFib P w) (i : BitVec 32) (v : BitVec w) : Option (LagFib P w) :=
  if h : i.toNat < P.size then some { e with r := Function.update e.r ⟨i.toNat, h⟩ v } else none

/-- `a op b op ...`, from left to right -/
def comb (op : Op) : List (BitVec w) → BitVec w
  | [] => 0
  | x :: xs => xs.foldl op.ap x

/-- lagfib2xor.hpp:239-244 (lagfib2plus.hpp:237-242, lagfib4xor.hpp:242-248,
lagfib4plus.hpp:239-245) `step`. -/
def step (e : LagFib P w) : Option (LagFib P w) := do
  let e := { e with index := (e.index + 1) &&& P.mask }
  let xs ← P.all.mapM fun l => e.read ((e.index - BitVec.ofNat 32 l) &&& P.mask)
  e.write e.index (comb P.op xs)

/-- `n` times `step` -/
def stepN : Nat → LagFib P w → Option (LagFib P w)
  | 0, e => some e
  | n + 1, e => do stepN n (← e.step)

/-- lagfib2xor.hpp:56-59 `operator()()`.  The first component is `none`, and the object is left
alone, if the call is undefined. -/
def call (e : LagFib P w) : Option (BitVec w) × LagFib P w :=
  match e.step with
  | none => (none, e)
  | some e' => (e'.read e'.index, e')

/-- A generator used for seeding: its values in the order of the calls, and `gen::min()`,
`gen::max()`. -/
structure Source where
  g : Nat → Nat
  min : Nat
  max : Nat

/-- lagfib2xor.hpp:141-146: the value assembled from the draws `k, k+1, ..., k+w-1`.  (Values drawn
are not below `gen::min()`, so the subtraction does not wrap.) -/
def seedWord (G : Source) (w k : Nat) : BitVec w :=
  (List.range w).foldl (fun (r : BitVec w) j =>
    let r := r <<< 1
    if G.g (k + j) - G.min > G.max / 2 then r + 1 else r) 0

/-- lagfib2xor.hpp:138-150 `seed(gen &)`. -/
def seedGen (e : LagFib P w) (G : Source) : LagFib P w where
  r := fun i => if i.val < P.last then seedWord G w (i.val * w) else e.r i
  index := BitVec.ofNat 32 P.last - 1

/-- the generator `minstd R(s)` as a source of seed values -/
def minstdSource (s : BitVec 64) : Source where
  g k := ((Nat.repeat (fun m : Minstd => m.step) k (Minstd.default.seed s)).step).r.toNat
  min := Minstd.minVal.toNat
  max := Minstd.maxVal.toNat

/-- lagfib2xor.hpp:133-136 `seed(unsigned long)`. -/
def seed (e : LagFib P w) (s : BitVec 64) : LagFib P w := e.seedGen (minstdSource s)

/-- lagfib2xor.hpp:122, 131 default construction. -/
def init : LagFib P w := seed {} 0

/-- the assignment `M(i, j) = v` with unsigned arguments; `none` if the flat index is out of
bounds -/
def setNat {T : Type} {n : Nat} (m : Mat T n) (i j : Nat) (v : T) : Option (Mat T n) :=
  if h : j + i * n < n * n then some ⟨Function.update m.data ⟨j + i * n, h⟩ v⟩ else none

/-- lagfib2xor.hpp:161-165 (lagfib2plus.hpp:161-165, lagfib4xor.hpp:162-168,
lagfib4plus.hpp:161-167): the transition matrix; the lags are entered from the last to the first.
`matrix_size - lag` is a subtraction in `unsigned int`. -/
def transition (T : Type) [Zero T] [One T] (P : Params) : Option (Mat T P.last) := do
  let M ← (List.range (P.last - 1)).foldlM (fun M i => setNat M i (i + 1) (1 : T)) Mat.zero
  P.all.reverse.foldlM (fun M l =>
    setNat M (P.last - 1) ((P.last + (2 ^ 32 - l)) % 2 ^ 32) 1) M

/-- lagfib2xor.hpp:167-169: `V(matrix_size - 1 - i) = S.r[(S.index - i) & mask]` for all `i`. -/
def history (e : LagFib P w) : Option (Vec (BitVec w) P.last) :=
  (List.finRange P.last).foldlM (fun V i => do
    let x ← e.read ((e.index - BitVec.ofNat 32 i.val) &&& P.mask)
    some (Function.update V i.rev x)) (fun _ => 0)

/-- lagfib2xor.hpp:170-176 (`sum ^= M(i, k) * V(k)`), lagfib2plus.hpp:170 and lagfib4plus.hpp:172 (`V = M * V`). -/
def advance (P : Params) (n : BitVec 64) (V : Vec (BitVec w) P.last) :
    Option (Vec (BitVec w) P.last) :=
  match P.op with
  | .xor => do
    let M ← transition GF2 P
    let M := power M n
    some fun i => (List.finRange P.last).foldl (fun sum k => sum ^^^ (M.get i k).act (V k)) 0
  | .plus => do
    let M ← transition (BitVec w) P
    some (mvmul (power M n) V)

/-- lagfib2xor.hpp:152-185 (lagfib2plus.hpp:152-179, lagfib4xor.hpp:153-188,
lagfib4plus.hpp:152-181) `discard`. -/
def discard (e : LagFib P w) (n : BitVec 64) : Option (LagFib P w) :=
  let B := BitVec.ofNat 64 P.last
  let pivot := BitVec.ofNat 64 (log2Ceil n.toNat) * B * B * B
  if n > pivot then do
    let part := n - B
    let V ← e.history
    let W ← advance P part V
    let index := (e.index.setWidth 64 + part).setWidth 32
    let index := index &&& P.mask
    let e ← (List.finRange P.last).foldlM (fun (e : LagFib P w) i =>
      e.write ((index - BitVec.ofNat 32 i.val) &&& P.mask) (W i.rev)) { e with index := index }
    stepN (n - part).toNat e
  else stepN n.toNat e

/-- lagfib2xor.hpp:79-86, 188 `operator==`. -/
def eq (e e' : LagFib P w) : Bool :=
  e.index = e'.index && (List.finRange P.size).all fun i => e.r i = e'.r i

end LagFib
end Trng
