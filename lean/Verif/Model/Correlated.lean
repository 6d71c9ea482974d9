import Verif.Model.Discrete
import Verif.Model.XReal

/-! Model of `correlated_normal_dist` (trng/correlated_normal_dist.hpp) on exact reals with the IEEE special values.
A read or write outside the vector `H_` is undefined behaviour (`none`).  Index arithmetic in `size_type` is exact: an
index `i * d_ + k` that overflowed would need a vector of more than 2^64 elements. -/
namespace Trng.Correlated
open XR Discrete

/-- correlated_normal_dist.hpp:58-61 `param_type`: the matrix, row by row, and its dimension. -/
structure Param where
  H : List XR
  d : Nat

/-- correlated_normal_dist.hpp:66-68 and 71-73: `t` after `n` steps of `t += H_[a + j] * H_[b + j]`. -/
noncomputable def dot (H : List XR) (a b : Nat) : Nat → Option XR
  | 0 => some 0
  | n + 1 => (dot H a b n).bind fun t => H[a + n]?.bind fun x => H[b + n]?.map fun y => t + x * y

/-- correlated_normal_dist.hpp:65-70: the loop over `k`, after `k` steps, in row `i`. -/
noncomputable def eliminate (d i : Nat) (H : List XR) : Nat → Option (List XR)
  | 0 => some H
  | k + 1 =>
    (eliminate d i H k).bind fun H =>
      (dot H (i * d) (k * d) k).bind fun t =>
        H[i * d + k]?.bind fun h => H[k * d + k]?.bind fun p => set? H (i * d + k) ((h - t) / p)

/-- correlated_normal_dist.hpp:75-76: `n` steps of the loop that clears row `i` behind the diagonal. -/
noncomputable def clear (d i : Nat) (H : List XR) : Nat → Option (List XR)
  | 0 => some H
  | n + 1 => (clear d i H n).bind fun H => set? H (i * d + (i + 1 + n)) 0

/-- correlated_normal_dist.hpp:65-76: row `i`. -/
noncomputable def row (d i : Nat) (H : List XR) : Option (List XR) :=
  (eliminate d i H i).bind fun H =>
    (dot H (i * d) (i * d) i).bind fun t =>
      H[i * d + i]?.bind fun h => (set? H (i * d + i) (XR.sqrt (h - t))).bind fun H => clear d i H (d - (i + 1))

/-- correlated_normal_dist.hpp:63-78 `Cholesky_factorization`, after `i` rows. -/
noncomputable def rows (d : Nat) (H : List XR) : Nat → Option (List XR)
  | 0 => some H
  | i + 1 => (rows d H i).bind fun H => row d i H

/-- correlated_normal_dist.hpp:92-100: the constructor from a range.  The rounding of the square root is left out: the
dimension is the integral part of the exact square root of the number of elements. -/
noncomputable def Param.ofRange (l : List XR) : Option Param :=
  (rows (Nat.sqrt l.length) (l.take (Nat.sqrt l.length * Nat.sqrt l.length)) (Nat.sqrt l.length)).map
    fun H => ⟨H, Nat.sqrt l.length⟩

/-- correlated_normal_dist.hpp:90 `param_type() = default`. -/
def Param.default : Param := ⟨[], 0⟩

/-- correlated_normal_dist.hpp:80-86 `H_times`: `y` after `n` steps, `d` being the length of the buffer. -/
noncomputable def timesLoop (P : Param) (z : List XR) (d : Nat) : Nat → Option XR
  | 0 => some 0
  | n + 1 =>
    (timesLoop P z d n).bind fun y => P.H[(d - 1) * P.d + n]?.bind fun h => z[n]?.map fun x => y + h * x

/-- correlated_normal_dist.hpp:80-86 `H_times`. -/
noncomputable def Param.times (P : Param) (z : List XR) : Option XR := timesLoop P z z.length z.length

/-- correlated_normal_dist.hpp:152-154: a distribution object. -/
structure Dist where
  P : Param
  normal : List XR

/-- correlated_normal_dist.hpp:158-160: the constructors. -/
def Dist.ofParam (P : Param) : Dist := ⟨P, []⟩

/-- correlated_normal_dist.hpp:162 `reset`. -/
def Dist.reset (D : Dist) : Dist := { D with normal := [] }

/-- correlated_normal_dist.hpp:181 `param(P_new)`. -/
def Dist.setParam (D : Dist) (P : Param) : Dist := { D with P := P }

/-- correlated_normal_dist.hpp:164-171 `operator()(r)` when the deviate is `u`; `inv` is the inverse normal distribution
function. -/
noncomputable def Dist.draw (inv : XR → XR) (D : Dist) (u : XR) : Option (XR × Dist) :=
  (D.P.times (D.normal ++ [inv u])).map fun y =>
    (y, if (D.normal ++ [inv u]).length = D.P.d then { D with normal := [] } else { D with normal := D.normal ++ [inv u] })

/-- correlated_normal_dist.hpp:172-176 `operator()(r, P)`. -/
noncomputable def drawWith (inv : XR → XR) (P : Param) (u : XR) : Option XR := ((Dist.ofParam P).draw inv u).map (·.1)

/-- The results of one call after another, the deviates being given. -/
noncomputable def Dist.draws (inv : XR → XR) (D : Dist) : List XR → Option (List XR × Dist)
  | [] => some ([], D)
  | u :: us => (D.draw inv u).bind fun r => (r.2.draws inv us).map fun s => (r.1 :: s.1, s.2)

end Trng.Correlated
