import Verif.Model.LagFib
/-
Vocabulary for the statements on the lagged Fibonacci engines.
-/
namespace Trng.LagFib

/-- Lags the engines are made for: different from each other, at least 1, the last one the largest,
not a power of two, and below 2^31. -/
structure Valid (P : Params) : Prop where
  nonempty : P.lags ≠ []
  range : ∀ l ∈ P.lags, 1 ≤ l ∧ l < P.last
  nodup : P.lags.Nodup
  notPow : ∀ k, P.last ≠ 2 ^ k
  bound : P.last < 2 ^ 31

/-- The lags of all typedefs in lagfib2xor.hpp:247-283 and lagfib2plus.hpp:245-277. The first entry,
`r250`, exists with `^` only. -/
def lags2 : List (List Nat × Nat) :=
  [([103], 250), ([168], 521), ([273], 607), ([418], 1279), ([1029], 2281), ([576], 3217),
   ([2098], 4423), ([4187], 9689), ([9842], 19937)]

/-- The lags of all typedefs in lagfib4xor.hpp:251-287 and lagfib4plus.hpp:248-280. The first entry,
Ziff's, exists with `^` only. -/
def lags4 : List (List Nat × Nat) :=
  [([471, 1586, 6988], 9689), ([168, 205, 242], 521), ([147, 239, 515], 607), ([418, 705, 992], 1279),
   ([305, 610, 915], 2281), ([576, 871, 1461], 3217), ([1419, 1736, 2053], 4423), ([471, 2032, 4064], 9689),
   ([3860, 7083, 11580], 19937)]

/-- Mathematically, a sequence generated by the recurrence: from index `last` on, each term
combines the terms `lag` places earlier. -/
def Recurrence {w : Nat} (P : Params) (x : Nat → BitVec w) : Prop :=
  ∀ k, x (P.last + k) = match P.op with
    | .xor => (P.all.map fun l => x (P.last + k - l)).foldl (· ^^^ ·) 0
    | .plus => (P.all.map fun l => x (P.last + k - l)).foldl (· + ·) 0

end Trng.LagFib
