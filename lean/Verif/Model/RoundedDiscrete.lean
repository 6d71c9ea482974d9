import Verif.Model.Rounded
import Verif.Model.DiscreteLaws

/-! Model of hypergeometric_dist, binomial_dist, zero_truncated_poisson_dist and geometric_dist in floating-point arithmetic: the
definitions of Model/DiscreteLaws.lean with a rounding after each operation and with the functions of the C library as parameters
(`Machine`, Model/Rounded.lean).  The `int`s that the code converts to `double` are numbers of the type (it has more than 31
digits). -/
namespace Trng
noncomputable section
open Classical XR Trng.Discrete

namespace Rounded
variable (M : Machine)

local infixl:65 (priority := high) " ⊕ " => Machine.add M
local infixl:65 (priority := high) " ⊖ " => Machine.sub M
local infixl:70 (priority := high) " ⊗ " => Machine.mul M
local infixl:70 (priority := high) " ⊘ " => Machine.div M

/-- special_functions.hpp:176-179 `ln_binomial`. -/
def lnBinomial (n m : XR) : XR := M.lnGamma (n ⊕ 1) ⊖ M.lnGamma (m ⊕ 1) ⊖ M.lnGamma (n ⊖ m ⊕ 1)

/-- `for (i = 1; …) P_[i] += P_[i-1];` (hypergeometric_dist.hpp:72-73, binomial_dist.hpp:73-74), from the entry before on. -/
def cumulateFrom (a : XR) : List XR → List XR
  | [] => []
  | p :: l => (p ⊕ a) :: cumulateFrom (p ⊕ a) l

/-- The same, from the first entry on. -/
def cumulate : List XR → List XR
  | [] => []
  | p :: l => p :: cumulateFrom M p l

/-- `for (i = 0; …) P_[i] /= P_.back();` (hypergeometric_dist.hpp:74-75, binomial_dist.hpp:76-77); the last entry, by
which all are divided, is replaced last. -/
def normalize (l : List XR) : List XR :=
  match l.getLast? with
  | none => l
  | some b => l.map (· ⊘ b)

/-- hypergeometric_dist.hpp:68-70, the entry for `x`. -/
def hyperEntry (n m : ℤ) (x : ℤ) : XR :=
  M.exp (lnBinomial M (ofInt m) (ofInt x) ⊕ lnBinomial M (ofInt (n - m)) (ofInt (m - x)))

/-- hypergeometric_dist.hpp:63-76, 95 the constructor with `calc_probabilities`. -/
def hypergeometric (n m d : ℤ) : Hypergeometric :=
  { n := n, m := m, d := d, xmin := Hypergeometric.lower n m d, xmax := Hypergeometric.upper m d
    P := normalize M (cumulate M ((List.range (Hypergeometric.upper m d + 1 - Hypergeometric.lower n m d).toNat).map fun i : ℕ =>
      hyperEntry M n m (Hypergeometric.lower n m d + (i : ℤ)))) }

/-- binomial_dist.hpp:65-71, the loop of `calc_probabilities` from `i` on, with `k` entries to go. -/
def binomialEntries (lnp lnq : XR) (n : ℕ) : (k i : ℕ) → (lnBinom : XR) → List XR
  | 0, _, _ => []
  | k + 1, i, b =>
    M.exp ((b ⊕ ofInt i ⊗ lnp) ⊕ ofInt ((n : ℤ) - i) ⊗ lnq) ::
      binomialEntries lnp lnq n k (i + 1) ((b ⊕ M.ln (ofInt ((n : ℤ) - i))) ⊖ M.ln (ofInt ((i : ℤ) + 1)))

/-- binomial_dist.hpp:59-78, 92 the constructor with `calc_probabilities`; `n` is not negative. -/
def binomial (p : XR) (n : ℕ) : Binomial :=
  { p := p, n := n, P := normalize M (cumulate M (binomialEntries M (M.ln p) (M.ln (1 ⊖ p)) n (n + 1) 0 0)) }

/-- poisson_dist.hpp:98-101 (zero_truncated_poisson_dist.hpp:99-102, negative_binomial_dist.hpp:127-130), the loop for the
tail: `none` if `x` leaves the range of `int`. -/
def tailLoop (pdf : ℤ → XR) : (fuel : ℕ) → (p : XR) → (x : ℤ) → Option ℤ
  | 0, _, _ => none
  | fuel + 1, p, x => if 0 < p then tailLoop pdf fuel (p ⊖ pdf (x + 1)) (x + 1) else some x

/-- poisson_dist.hpp:93-103 (zero_truncated_poisson_dist.hpp:94-104, negative_binomial_dist.hpp:122-132) `operator()`; `u`
is the deviate. -/
def tailDraw (cdf pdf : ℤ → XR) (P : List XR) (u : XR) : Option ℤ :=
  (search u P).bind fun x =>
    if x + 1 = P.length then tailLoop M pdf (2 ^ 31 - x) (u ⊖ cdf x) x else some (x : ℤ)

namespace ZTPoisson
variable (Q : XR → XR → XR)

/-- zero_truncated_poisson_dist.hpp:125-129 `cdf`; `Q` is `math::GammaQ`. -/
def cdf (mu : XR) (x : ℤ) : XR := if x ≤ 0 then 0 else (M.exp mu ⊗ Q (ofInt x ⊕ 1) mu ⊖ 1) ⊘ M.expm1 mu

/-- zero_truncated_poisson_dist.hpp:119-123 `pdf`. -/
def pdf (mu : XR) (x : ℤ) : XR :=
  if x ≤ 0 then 0 else M.exp (-M.lnGamma (ofInt x ⊕ 1) ⊕ ofInt x ⊗ M.ln mu) ⊘ M.expm1 mu

/-- zero_truncated_poisson_dist.hpp:63-68, the loop of `calc_probabilities`; `none` if `x` leaves the range of `int`. -/
def tableLoop (mu : XR) : (fuel : ℕ) → (x : ℤ) → Option (List XR)
  | 0, _ => none
  | fuel + 1, x =>
    if x < 7 ∨ ofInt x < 2 ⊗ mu then
      (tableLoop mu fuel (x + 1)).map fun l => (M.exp mu ⊗ Q (ofInt x ⊕ 1) mu ⊖ 1) ⊘ M.expm1 mu :: l
    else some [1]

/-- zero_truncated_poisson_dist.hpp:59-69 `calc_probabilities`. -/
def table (mu : XR) : Option (List XR) := (tableLoop M Q mu (2 ^ 31 - 1) 1).map fun l => 0 :: l

/-- zero_truncated_poisson_dist.hpp:78, 92-105 construction and `operator()`. -/
def draw (mu u : XR) : Option ℤ := (table M Q mu).bind fun P => tailDraw M (cdf M Q mu) (pdf M mu) P u

end ZTPoisson

/-- geometric_dist.hpp:73-74 the constructor (the setter of lines 67-71 is the same). -/
def geometric (p : XR) : Geometric := { p := p, q := 1 ⊖ p, oneOverLnQ := 1 ⊘ M.ln (1 ⊖ p) }

/-- geometric_dist.hpp:91-94 `operator()`; `u` is the deviate. -/
def geometricDraw (G : Geometric) (u : XR) : Option ℤ := (M.ln u ⊗ G.oneOverLnQ).toInt

/-- geometric_dist.hpp:120-122 `cdf`. -/
def geometricCdf (G : Geometric) (x : ℤ) : XR := if x < 0 then 0 else 1 ⊖ M.pow G.q (ofInt (x + 1))

end Rounded
end
end Trng
