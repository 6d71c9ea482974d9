import Verif.Model.Basic
import Mathlib.Data.List.FinRange
import Mathlib.Logic.Function.Basic

/-
Model of trng/linear_algebra.hpp.

The element type `T` is any type with `0`, `1`, `+` and `*`.  A `vector<T, n>` is a function on
`Fin n`; a `matrix<T, n>` keeps its `n*n` elements in one flat array, as the code does.
-/
namespace Trng.LinAlg

/-- linear_algebra.hpp:47-85 `vector<T, n>`. -/
abbrev Vec (T : Type) (n : Nat) := Fin n → T

/-- linear_algebra.hpp:88-121 `matrix<T, n>`: the member `data` of size `n * n`. -/
structure Mat (T : Type) (n : Nat) where
  data : Fin (n * n) → T

theorem flat_lt {n : Nat} (i j : Fin n) : j.val + i.val * n < n * n := by
  have := Nat.mul_le_mul_right n (Nat.succ_le_of_lt i.isLt)
  have := j.isLt
  rw [Nat.succ_mul] at *
  omega

variable {T : Type} {n : Nat}

namespace Mat

/-- linear_algebra.hpp:117 `operator()(i, j)`, reading. -/
def get (m : Mat T n) (i j : Fin n) : T := m.data ⟨j.val + i.val * n, flat_lt i j⟩

/-- linear_algebra.hpp:116 `operator()(i, j)`, assigning to the returned reference. -/
def set (m : Mat T n) (i j : Fin n) (v : T) : Mat T n :=
  ⟨Function.update m.data ⟨j.val + i.val * n, flat_lt i j⟩ v⟩

/-- linear_algebra.hpp:97 default constructor (elements value-initialised). -/
def zero [Zero T] : Mat T n := ⟨fun _ => 0⟩

theorem pos_of_flat {p : Nat} (h : p < n * n) : 0 < n := by
  rcases Nat.eq_zero_or_pos n with h0 | h0
  · subst h0; simp at h
  · exact h0

/-- linear_algebra.hpp:99-107 construction from a function: element number `p` pushed back is
`f(p / n, p % n)`. -/
def ofFn (f : Fin n → Fin n → T) : Mat T n :=
  ⟨fun p => f ⟨p.val / n, (Nat.div_lt_iff_lt_mul (pos_of_flat p.isLt)).2 p.isLt⟩
    ⟨p.val % n, Nat.mod_lt _ (pos_of_flat p.isLt)⟩⟩

end Mat

/-- linear_algebra.hpp:124-129 `vector + vector`. -/
def vadd [Add T] (a b : Vec T n) : Vec T n := fun i => a i + b i

/-- linear_algebra.hpp:132-137 `T * vector`. -/
def svmul [Mul T] (a : T) (b : Vec T n) : Vec T n := fun i => a * b i

/-- linear_algebra.hpp:140-145 `vector * T`. -/
def vsmul [Mul T] (a : Vec T n) (b : T) : Vec T n := fun i => a i * b

/-- linear_algebra.hpp:148-153 `matrix + matrix`. -/
def madd [Add T] (a b : Mat T n) : Mat T n := Mat.ofFn fun i j => a.get i j + b.get i j

/-- linear_algebra.hpp:156-161 `T * matrix`. -/
def smmul [Mul T] (a : T) (b : Mat T n) : Mat T n := Mat.ofFn fun i j => a * b.get i j

/-- linear_algebra.hpp:164-169 `matrix * T`. -/
def msmul [Mul T] (a : Mat T n) (b : T) : Mat T n := Mat.ofFn fun i j => a.get i j * b

/-- linear_algebra.hpp:172-182 `matrix * vector`. -/
def mvmul [Zero T] [Add T] [Mul T] (a : Mat T n) (b : Vec T n) : Vec T n :=
  fun i => (List.finRange n).foldl (fun sum k => sum + a.get i k * b k) 0

/-- linear_algebra.hpp:190, 194: the values of `j0` and of `k0`. -/
def starts (n : Nat) : List Nat := (List.range ((n + 31) / 32)).map (32 * ·)

/-- linear_algebra.hpp:192, 196, 198: the values of an index running from `j0` to
`min(n, j0 + step)`. -/
def block (n j0 : Nat) : List (Fin n) :=
  (List.finRange n).filter fun j => decide (j0 ≤ j.val ∧ j.val < min n (j0 + 32))

/-- linear_algebra.hpp:185-205 `matrix * matrix`, blocked. -/
def mmul [Zero T] [Add T] [Mul T] (a b : Mat T n) : Mat T n :=
  (starts n).foldl (fun res j0 =>
    let res := (List.finRange n).foldl (fun res i =>
      (block n j0).foldl (fun res j => res.set i j 0) res) res
    (starts n).foldl (fun res k0 =>
      (List.finRange n).foldl (fun res i =>
        (block n j0).foldl (fun res j =>
          let sum := (block n k0).foldl (fun sum k => sum + a.get i k * b.get k j) 0
          res.set i j (res.get i j + sum)) res) res) res)
    Mat.zero

/-- linear_algebra.hpp:216-223: the loop of `power`; 64 iterations are enough, as `m` is halved
each time. -/
def powerLoop [Zero T] [Add T] [Mul T] :
    (fuel : Nat) → (m : BitVec 64) → (res powers : Mat T n) → Mat T n
  | 0, _, res, _ => res
  | fuel + 1, m, res, powers =>
    if m > 0 then
      let res := if m &&& 1 = 1 then mmul res powers else res
      let m := m >>> 1
      if m = 0 then res else powerLoop fuel m res (mmul powers powers)
    else res

/-- linear_algebra.hpp:208-225 `power`. -/
def power [Zero T] [One T] [Add T] [Mul T] (a : Mat T n) (m : BitVec 64) : Mat T n :=
  powerLoop 64 m (Mat.ofFn fun i j => if i = j then 1 else 0) a

/-- linear_algebra.hpp:83, 119 `operator==`: the element arrays agree. -/
def Mat.eq [DecidableEq T] (a b : Mat T n) : Bool := (List.finRange (n * n)).all fun p => a.data p = b.data p

/-- linear_algebra.hpp:228-244 class `GF2`.  The member `value` is a byte; all public constructors
and operators only give 0 or 1, so it is kept as a `Bool` here. -/
structure GF2 where
  value : Bool
deriving DecidableEq, Repr

namespace GF2

/-- linear_algebra.hpp:239 `GF2(0)`. -/
instance : Zero GF2 := ⟨⟨false⟩⟩
/-- linear_algebra.hpp:239 `GF2(1)`. -/
instance : One GF2 := ⟨⟨true⟩⟩
/-- linear_algebra.hpp:246-249, 256-258 `+`, `+=`. -/
instance : Add GF2 := ⟨fun a b => ⟨a.value ^^ b.value⟩⟩
/-- linear_algebra.hpp:251-254, 260-262 `*`, `*=`. -/
instance : Mul GF2 := ⟨fun a b => ⟨a.value && b.value⟩⟩
/-- linear_algebra.hpp:239 `GF2(int)`. -/
def ofInt (v : Int) : GF2 := ⟨v ≠ 0⟩
/-- linear_algebra.hpp:264-274 `GF2 * integer` (the product in the other order is the same). -/
def act {w : Nat} (a : GF2) (b : BitVec w) : BitVec w := if a.value then b else 0

end GF2
end Trng.LinAlg
