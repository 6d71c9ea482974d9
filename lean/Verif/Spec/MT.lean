/-
The Mersenne twister as the C++ standard defines it ([rand.eng.mers], class template
`mersenne_twister_engine` with the template parameters w, n, m, r, a, u, d, s, b, t, c, l, f).
Nothing in this file refers to the model.
-/
namespace Trng.Spec

variable {w : Nat}

/-- Transition of the standard, as a recurrence: `Y` has the upper `w - r` bits of `X_i` and the
lower `r` bits of `X_{i+1}`; `X_{i+n} = X_{i+m} xor (Y rshift 1) xor α` where `α = a` if the lowest
bit of `Y` is set, else 0. -/
def TwisterRecurrence (n m r : Nat) (a : BitVec w) (X : Nat → BitVec w) : Prop :=
  ∀ i, ∃ Y : BitVec w,
    (∀ j, j < w → Y.getLsbD j = if j < r then (X (i + 1)).getLsbD j else (X i).getLsbD j) ∧
    X (i + n) = X (i + m) ^^^ (Y >>> 1) ^^^ (if Y.getLsbD 0 then a else 0)

/-- Generation algorithm of the standard: z1 to z4. -/
def twisterTemper (u : Nat) (d : BitVec w) (s : Nat) (b : BitVec w) (t : Nat) (c : BitVec w) (l : Nat)
    (x : BitVec w) : BitVec w :=
  let z1 := x ^^^ ((x >>> u) &&& d)
  let z2 := z1 ^^^ ((z1 <<< s) &&& b)
  let z3 := z2 ^^^ ((z2 <<< t) &&& c)
  z3 ^^^ (z3 >>> l)

/-- Seeding of the standard: the first `n` terms. -/
def TwisterSeed (n : Nat) (f : BitVec w) (value : Nat) (X : Nat → BitVec w) : Prop :=
  X 0 = BitVec.ofNat w value ∧
  ∀ i, 1 ≤ i → i < n → X i = f * (X (i - 1) ^^^ (X (i - 1) >>> (w - 2))) + BitVec.ofNat w (i % n)

end Trng.Spec
