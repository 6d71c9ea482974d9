import Verif.Model.DiscreteLaws

/-! Model of the numerical methods for the incomplete Gamma and Beta functions and of some small functions
(trng/special_functions.hpp, trng/math.hpp), on exact reals with the IEEE special values (Model/XReal.lean).  `errno` is not
modelled. -/
namespace Trng

/-- The members of `numeric_limits<T>` that the functions use; `lnMax` is the logarithm of `max()`. -/
structure Limits where
  digits : ℕ
  digits10 : ℕ
  epsilon : ℝ
  min : ℝ
  lnMax : ℝ

noncomputable section
open Classical XR

namespace Limits
/-- IEEE 754 binary32. -/
def float : Limits := ⟨24, 6, 2⁻¹ ^ 23, 2⁻¹ ^ 126, Real.log ((2 - 2⁻¹ ^ 23) * 2 ^ 127)⟩
/-- IEEE 754 binary64. -/
def double : Limits := ⟨53, 15, 2⁻¹ ^ 52, 2⁻¹ ^ 1022, Real.log ((2 - 2⁻¹ ^ 52) * 2 ^ 1023)⟩
/-- The 80-bit format of x86. -/
def longDouble : Limits := ⟨64, 18, 2⁻¹ ^ 63, 2⁻¹ ^ 16382, Real.log ((2 - 2⁻¹ ^ 63) * 2 ^ 16383)⟩
end Limits

/-- utility.hpp:56-59 `min`. -/
def XR.umin (a b : XR) : XR := if a ≤ b then a else b
/-- utility.hpp:61-64 `max` (`a >= b` is false if one of them is NaN). -/
def XR.umax (a b : XR) : XR := if b ≤ a then a else b

/-- special_functions.hpp:116-132 `Gamma`, i.e. `std::tgamma`; at a pole (0 and the negative integers) the result is a
special value, here NaN. -/
def XR.gamma : XR → XR
  | nan => nan
  | fin x => if ∃ n : ℕ, x = -n then nan else fin (Real.Gamma x)
  | pinf => pinf
  | ninf => nan

namespace Special

/-! ### Small functions -/

/-- math.hpp:149-151 `log(b, x)`. -/
def logBase (b x : XR) : XR := ln x * ln b
/-- math.hpp:166-168 `sqrt(r, x)`. -/
def root (r x : XR) : XR := XR.pow x (1 / r)

/-- special_functions.hpp:67-74: the loop of `mln1p`, from `n` on with `k` turns left. -/
def mln1pLoop (L : Limits) (x : XR) : (k n : ℕ) → (y xn sign : XR) → XR
  | 0, _, y, _, _ => y
  | k + 1, n, y, xn, sign =>
    let delta := sign * xn / fin n
    let y := y + delta
    if XR.abs delta < 4 * fin L.epsilon * y then y else mln1pLoop L x k (n + 1) y (xn * x) (-sign)

/-- special_functions.hpp:59-76 `mln1p`. -/
def mln1p (L : Limits) (x : XR) : XR :=
  if 1 / 32 ≤ XR.abs x then x - ln1p x else mln1pLoop L x (L.digits - 2) 2 0 (x * x) 1

/-- special_functions.hpp:136-150 `Beta`. -/
def beta (L : Limits) (x y : XR) : XR :=
  if x ≤ 0 ∨ y ≤ 0 then nan
  else
    let z := x + y
    if fin L.lnMax < z * ln z - z then XR.exp (lnGamma x + lnGamma y - lnGamma z)
    else XR.gamma x / XR.gamma z * XR.gamma y

/-- special_functions.hpp:189-203 `Pochhammer`. -/
def pochhammer (x a : XR) : XR := XR.exp (lnGamma (x + a) - lnGamma x)

/-! ### Incomplete Gamma functions -/

/-- special_functions.hpp:226-231: the loop of `GammaP_ser`, with `k` turns left. -/
def serLoop (eps x : XR) : (k : ℕ) → (xx n sum : XR) → XR
  | 0, _, _, sum => sum
  | k + 1, xx, n, sum =>
    let n := n + 1
    let xx := xx * (x / n)
    let sum := sum + xx
    if eps * XR.abs sum < XR.abs xx then serLoop eps x k xx n sum else sum

/-- special_functions.hpp:218-240 `GammaP_ser`; `byGamma` is the template argument `by_Gamma_a`. -/
def gammaPSer (L : Limits) (byGamma : Bool) (a x : XR) : XR :=
  let eps := 4 * fin L.epsilon
  if x < eps then 0
  else
    let sum := serLoop eps x L.digits (1 / a) a (1 / a)
    if byGamma then XR.exp (-x + a * ln x - lnGamma a) * sum else XR.exp (-x + a * ln x) * sum

/-- special_functions.hpp:258-271: the loop of `GammaQ_cf`, with `k` turns left. -/
def cfLoop (eps min a : XR) : (k : ℕ) → (i bi ci di h : XR) → XR
  | 0, _, _, _, _, h => h
  | k + 1, i, bi, ci, di, h =>
    let i := i + 1
    let ai := -i * (i - a)
    let bi := bi + 2
    let di := ai * di + bi
    let di := if XR.abs di < min then min else di
    let ci := bi + ai / ci
    let ci := if XR.abs ci < min then min else ci
    let di := 1 / di
    let del := di * ci
    let h := h * del
    if eps < XR.abs (del - 1) then cfLoop eps min a k i bi ci di h else h

/-- special_functions.hpp:251-280 `GammaQ_cf`. -/
def gammaQCf (L : Limits) (byGamma : Bool) (a x : XR) : XR :=
  let eps := 4 * fin L.epsilon
  let min := 4 * fin L.min
  let bi := x + 1 - a
  let h := cfLoop eps min a L.digits 0 bi (1 / min) (1 / bi) (1 / bi)
  if byGamma then XR.exp (-x + a * ln x - lnGamma a) * h else XR.exp (-x + a * ln x) * h

/-- special_functions.hpp:414-434 `GammaP`; `asympt` stands for `GammaP_asympt` (lines 283-411), which is modelled in
`Model/GammaAsympt`. -/
def gammaP (L : Limits) (asympt : XR → XR → XR) (byGamma : Bool) (a x : XR) : XR :=
  if x < 0 ∨ a ≤ 0 then nan
  else if byGamma then
    if fin L.digits10 < a ∧ 3 / 10 * a < x ∧ x < 235 / 100 * a then asympt a x
    else if x < a + 1 then gammaPSer L true a x
    else 1 - gammaQCf L true a x
  else
    if x < a + 1 then gammaPSer L false a x
    else XR.gamma a - gammaQCf L false a x

/-- special_functions.hpp:437-457 `GammaQ`; `asympt` stands for `GammaQ_asympt`. -/
def gammaQ (L : Limits) (asympt : XR → XR → XR) (byGamma : Bool) (a x : XR) : XR :=
  if x < 0 ∨ a ≤ 0 then nan
  else if byGamma then
    if fin L.digits10 < a ∧ 3 / 10 * a < x ∧ x < 235 / 100 * a then asympt a x
    else if x < a + 1 then 1 - gammaPSer L true a x
    else gammaQCf L true a x
  else
    if x < a + 1 then XR.gamma a - gammaPSer L false a x
    else gammaQCf L false a x

/-- special_functions.hpp:553-570: the refinement of `inv_GammaP`, with `k` turns left; `GP` is `GammaP`. -/
def invGammaLoop (L : Limits) (GP : XR → XR → XR) (a p glna lna1 afac : XR) : (k : ℕ) → (x : XR) → XR
  | 0, x => x
  | k + 1, x =>
    if x ≤ 0 then 0
    else
      let err := GP a x - p
      let t := if 1 < a then afac * XR.exp (-(x - (a - 1)) + (a - 1) * (ln x - lna1)) else XR.exp (-x + (a - 1) * ln x - glna)
      let u := err / t
      let t := u / (1 - umin 1 (u * ((a - 1) / x - 1)) / 2)
      let x := x - t
      let x := if x ≤ 0 then (x + t) / 2 else x
      if XR.abs t < sqrt (fin L.epsilon) * x then x else invGammaLoop L GP a p glna lna1 afac k x

/-- special_functions.hpp:540-551: the initial guess of `inv_GammaP`. -/
def invGammaGuess (a p : XR) : XR :=
  if 1 < a then
    let pp := if p < 1 / 2 then p else 1 - p
    let t := sqrt (-2 * ln pp)
    let x := (fin 2.30753 + t * fin 0.27061) / (1 + t * (fin 0.99229 + t * fin 0.04481)) - t
    let x := if p < 1 / 2 then -x else x
    umax (1 / 1000) (a * XR.pow (1 - 1 / (9 * a) - x / (3 * sqrt a)) 3)
  else
    let t := 1 - a * (fin 0.253 + a * fin 0.12)
    if p < t then XR.pow (p / t) (1 / a) else 1 - ln1p (-(p - t) / (1 - t))

/-- special_functions.hpp:533-572 `inv_GammaP`; `GP` is `GammaP`. -/
def invGammaP (L : Limits) (GP : XR → XR → XR) (a p : XR) : XR :=
  let glna := lnGamma a
  let lna1 := ln (a - 1)
  let afac := XR.exp ((a - 1) * (lna1 - 1) - glna)
  invGammaLoop L GP a p glna lna1 afac L.digits (invGammaGuess a p)

/-! ### Incomplete Beta function -/

/-- special_functions.hpp:621-637: the loop of `Beta_I`; `none` if the variable `s`, an `int`, overflows.  The fuel given by
`betaI` is more than the number of turns that this allows. -/
def betaLoop (eps p q x : XR) : (fuel : ℕ) → (term y i temp rx psq : XR) → (s : ℤ) → Option XR
  | 0, _, _, _, _, _, _, _ => none
  | fuel + 1, term, y, i, temp, rx, psq, s =>
    let term := term * (temp * rx / (p + i))
    let y := y + term
    if XR.abs term ≤ eps ∧ XR.abs term ≤ eps * y then some y
    else
      let i := i + 1
      let s := s - 1
      if s < -2 ^ 31 then none
      else if 0 ≤ s then betaLoop eps p q x fuel term y i (q - i) (if s = 0 then x else rx) psq s
      else betaLoop eps p q x fuel term y i psq rx (psq + 1) s

/-- special_functions.hpp:617-638: the part of `Beta_I` behind the exchange of the arguments; `cx` is `1 - x`. -/
def betaSeries (L : Limits) (x cx p q psq norm : XR) : Option XR :=
  (toInt (q + cx * psq)).bind fun s =>
    (betaLoop (4 * fin L.epsilon) p q x (2 ^ 33) 1 1 1 (q - 1) (if s = 0 then x else x / cx) psq s).map fun y =>
      y * (XR.exp (p * ln x + (q - 1) * ln cx) / p / norm)

/-- special_functions.hpp:601-640 `Beta_I`; `none` is undefined behaviour. -/
def betaI (L : Limits) (x p q norm : XR) : Option XR :=
  if p ≤ 0 ∨ q ≤ 0 ∨ x < 0 ∨ 1 < x then some nan
  else if p < (p + q) * x then (betaSeries L (1 - x) x q p (p + q) norm).map fun y => 1 - y
  else betaSeries L x (1 - x) p q (p + q) norm

/-- special_functions.hpp:708-709: `while (y - dy <= 0 or y - dy >= 1) dy *= 3 / 4`; `none` if the loop does not end. -/
def damp (y dy : XR) : Option XR :=
  if h : ∃ k : ℕ, ¬(y - Nat.repeat (· * (3 / 4)) k dy ≤ 0 ∨ 1 ≤ y - Nat.repeat (· * (3 / 4)) k dy) then
    some (Nat.repeat (· * (3 / 4)) (Nat.find h) dy)
  else none

/-- special_functions.hpp:701-711: the Newton iteration of `inv_Beta_I`, with `k` turns left; `BI` is `Beta_I`. -/
def invBetaLoop (L : Limits) (BI : XR → XR → XR → XR → Option XR) (x p q norm : XR) : (k : ℕ) → (y : XR) → Option XR
  | 0, y => some y
  | k + 1, y =>
    (BI y p q norm).bind fun b =>
      let f := b - x
      let df := XR.pow (1 - y) (q - 1) * XR.pow y (p - 1) / norm
      if XR.abs (f / y) < 2 * fin L.epsilon then some y
      else (damp y (f / df)).bind fun dy => invBetaLoop L BI x p q norm k (y - dy)

/-- special_functions.hpp:685-700: the start of the iteration of `inv_Beta_I`.  Simplification: of all operations only the
subtraction in line 699 is rounded, by `rnd`; nothing is rounded if `rnd` is the identity. -/
def invBetaGuess (rnd : XR → XR) (x p q : XR) : XR :=
  if 1 ≤ 2 * p ∧ 1 ≤ 2 * q then (3 * p - 1) / (3 * p + 3 * q - 2)
  else
    let lnp := ln (p / (p + q))
    let lnq := ln (q / (p + q))
    let t := XR.exp (p * lnp) / p
    let u := XR.exp (q * lnq) / q
    let w := t + u
    if x < t / w then XR.pow (p * w * x) (1 / p) else rnd (1 - XR.pow (q * w * (1 - x)) (1 / q))

/-- special_functions.hpp:678-713 `inv_Beta_I`; `BI` is `Beta_I`. -/
def invBetaI (L : Limits) (rnd : XR → XR) (BI : XR → XR → XR → XR → Option XR) (x p q norm : XR) : Option XR :=
  if x < fin L.epsilon then some 0
  else if 1 - x < fin L.epsilon then some 1
  else invBetaLoop L BI x p q norm L.digits (invBetaGuess rnd x p q)

end Special
end
end Trng
