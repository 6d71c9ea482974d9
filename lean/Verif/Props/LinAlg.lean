import Verif.Proofs.LinAlg
import Mathlib.Data.BitVec

/-! C42: linear algebra (trng/linear_algebra.hpp). -/
namespace Trng
open LinAlg

variable {T : Type} {n : Nat}

/-- The blocked product of two matrices has the elements of the mathematical product, for every
dimension and every element type in which multiplication distributes over addition. -/
theorem C42_mat_mul [NonUnitalNonAssocSemiring T] (a b : Mat T n) (i j : Fin n) :
    (mmul a b).get i j = ∑ k, a.get i k * b.get k j :=
  mmul_get a b i j

example : (mmul (Mat.ofFn fun i j => BitVec.ofNat 32 (2 * i.val + j.val + 1) : Mat (BitVec 32) 2)
    (Mat.ofFn fun i j => BitVec.ofNat 32 (i.val + 5 * j.val + 7))).get 1 0 = 53#32 := by decide +kernel

/-- The product of a matrix and a vector. -/
theorem C42_mat_vec [NonUnitalNonAssocSemiring T] (a : Mat T n) (b : Vec T n) (i : Fin n) :
    mvmul a b i = ∑ k, a.get i k * b k :=
  mvmul_apply a b i

example : mvmul (Mat.ofFn fun i j => BitVec.ofNat 32 (2 * i.val + j.val + 1) : Mat (BitVec 32) 2)
    (fun k => BitVec.ofNat 32 (k.val + 7)) 1 = 53#32 := by decide +kernel

/-- `power(a, m)` is the `m`-fold product of `a`, for every 64-bit exponent. -/
theorem C42_power [Semiring T] (a : Mat T n) (m : BitVec 64) :
    (Matrix.of fun i j => (power a m).get i j) = (Matrix.of fun i j => a.get i j) ^ m.toNat :=
  toMatrix_power a m

example : (power (Mat.ofFn fun i j => if i.val ≤ j.val then 1 else 0 : Mat (BitVec 64) 2) 11).get 0 1 = 11#64 := by
  decide +kernel

/-- Element access: an assigned element is read back, all others keep their value. -/
theorem C42_element (a : Mat T n) (i j i' j' : Fin n) (v : T) :
    (a.set i j v).get i j = v ∧ ((i', j') ≠ (i, j) → (a.set i j v).get i' j' = a.get i' j') := by
  refine ⟨by rw [Mat.get_set, if_pos ⟨rfl, rfl⟩], fun h => ?_⟩
  rw [Mat.get_set, if_neg (fun hc => h (by rw [hc.1, hc.2]))]

example : ((0 : Fin 3), (1 : Fin 3)) ≠ (1, 0) := by decide

/-- Construction from a function, sums and products with a scalar. -/
theorem C42_elementwise [Add T] [Mul T] (a b : Mat T n) (u v : Vec T n) (c : T) (f : Fin n → Fin n → T) (i j : Fin n) :
    (Mat.ofFn f).get i j = f i j ∧
    (madd a b).get i j = a.get i j + b.get i j ∧
    (smmul c a).get i j = c * a.get i j ∧ (msmul a c).get i j = a.get i j * c ∧
    vadd u v i = u i + v i ∧ svmul c u i = c * u i ∧ vsmul u c i = u i * c :=
  ⟨Mat.get_ofFn .., Mat.get_ofFn .., Mat.get_ofFn .., Mat.get_ofFn .., rfl, rfl, rfl⟩

/-- `==` holds exactly for matrices with the same elements. -/
theorem C42_equal [DecidableEq T] (a b : Mat T n) : a.eq b = true ↔ ∀ i j, a.get i j = b.get i j := by
  rw [Mat.eq_iff]
  exact ⟨fun h => by rw [h]; intro _ _; rfl, Mat.ext_get⟩

/-- The class `GF2` is the field with two elements: there is a bijection to the integers modulo 2
that respects `+` and `*` and takes `GF2(v)`, `v` an integer, to 1 or 0 according to `v != 0`. -/
theorem C42_GF2 : ∃ φ : GF2 ≃ ZMod 2, (∀ a b, φ (a + b) = φ a + φ b) ∧ (∀ a b, φ (a * b) = φ a * φ b) ∧
    ∀ v : Int, φ (GF2.ofInt v) = if v = 0 then 0 else 1 := by
  refine ⟨GF2.equivZMod.toEquiv, GF2.equivZMod.map_add, GF2.equivZMod.map_mul, fun v => ?_⟩
  show (if (GF2.ofInt v).value then (1 : ZMod 2) else 0) = _
  by_cases h : v = 0
  · simp [GF2.ofInt, h]
  · simp [GF2.ofInt, h]

/-- The product of a `GF2` value and an integer selects the integer or zero, and is linear in both
arguments (with exclusive or as addition of integers). -/
theorem C42_GF2_act {w : Nat} (a b : GF2) (x y : BitVec w) :
    (1 : GF2).act x = x ∧ (0 : GF2).act x = 0 ∧
    (a + b).act x = a.act x ^^^ b.act x ∧ a.act (x ^^^ y) = a.act x ^^^ a.act y ∧
    (a * b).act x = a.act (b.act x) := by
  refine ⟨rfl, rfl, ?_, ?_, ?_⟩
  · rcases a with ⟨_ | _⟩ <;> rcases b with ⟨_ | _⟩ <;> simp [GF2.act, GF2.add_value]
  · rcases a with ⟨_ | _⟩ <;> simp [GF2.act]
  · rcases a with ⟨_ | _⟩ <;> rcases b with ⟨_ | _⟩ <;> simp [GF2.act, GF2.mul_value]

/-- All of this holds for the two element types used in the library: `GF2` and unsigned integers
of any width. -/
theorem C42_scalars {w : Nat} (a b : Mat (BitVec w) n) (c d : Mat GF2 n) (m : BitVec 64) :
    (∀ i j, (mmul a b).get i j = ∑ k, a.get i k * b.get k j) ∧
    (∀ i j, (mmul c d).get i j = ∑ k, c.get i k * d.get k j) ∧
    (Matrix.of fun i j => (power a m).get i j) = (Matrix.of fun i j => a.get i j) ^ m.toNat ∧
    (Matrix.of fun i j => (power c m).get i j) = (Matrix.of fun i j => c.get i j) ^ m.toNat :=
  ⟨C42_mat_mul a b, C42_mat_mul c d, C42_power a m, C42_power c m⟩

end Trng
