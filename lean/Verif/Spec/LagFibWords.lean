import Verif.Model.LagFib
import Verif.Model.Uniform
import Verif.Spec.Engine
import Mathlib.Data.Finset.Card
import Mathlib.Data.Fintype.Prod
import Mathlib.Algebra.Group.Nat.Even

/-! C111: words of the lagged Fibonacci engines with `^`. -/
namespace Trng
open LagFib Spec Trng.Uniform

variable {w : ℕ}

/-- No parity of bits of `n` successive numbers is constantly even: whichever non-empty set of bits of `n` successive numbers is chosen, an odd number
of them is set somewhere in the sequence of the engine. -/
def LagFib.NoRelation {P : Params} (e : LagFib P w) (n : ℕ) : Prop :=
  ∀ S : Finset (Fin n × Fin w), S.Nonempty → ∃ k, Odd (S.filter fun p => (nth call e (k + p.1.val)).map (·.getLsbD p.2.val) = some true).card

/-- lagfib2xor.hpp:56-68, lagfib4xor.hpp:57-69: `operator()`, `min()` and `max()` as a generator for the distributions.  (An undefined call, which does not
happen to the predefined engines, C33, counts as 0.) -/
def lagGen (P : Params) (w : ℕ) : Gen (LagFib P w) := ⟨fun e => (((call e).1.getD 0).toNat, (call e).2), 0, 2 ^ w - 1⟩

end Trng
