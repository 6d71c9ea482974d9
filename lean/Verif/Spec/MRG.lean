import Verif.Model.MRG
import Verif.Spec.Engine
/-
Vocabulary for the properties of the mrg and yarn engines.
-/
namespace Trng.Spec
open Trng

/-- The parameters and the state are residues modulo `m`. -/
def InRange {n : Nat} (m : Nat) (e : MRG n) : Prop := ∀ i, 0 ≤ e.a i ∧ e.a i < m ∧ 0 ≤ e.r i ∧ e.r i < m

/-- The state is not all zero. -/
def NonZero {n : Nat} (e : MRG n) : Prop := ∃ i, e.r i ≠ 0

/-- The last coefficient of the recurrence is not zero. -/
def LastNonZero {n : Nat} (e : MRG n) : Prop := ∀ i : Fin n, i.val + 1 = n → e.a i ≠ 0

/-- `e` uses the parameter set `l`. -/
def Uses {n : Nat} (e : MRG n) (l : List Int) : Prop := ∀ i : Fin n, l[i.val]? = some (e.a i)

/-- The engines for which `split` is claimed to be correct: all parameters and states in range; the five-term
engines with their built-in parameter sets only. -/
def Splittable (K : Kind) (e : MRG K.order) : Prop :=
  InRange K.modulus e ∧ (K.order = 5 → ∃ l ∈ K.paramLists, Uses e l)

/-- The sequence belonging to an engine: first the stored values, oldest first, then the values that the
calls return. -/
def valueSeq {n : Nat} [NeZero n] (m : Nat) (e : MRG n) (i : Nat) : Int :=
  if h : i < n then e.r ⟨n - 1 - i, by omega⟩ else nth (MRG.call m) e (i - n)

/-- Built-in parameter sets with the documented period `m^n - 1`. -/
def fullPeriod : Kind → List (List Int)
  | .k2 => [[1498809829, 1160990996], [46325, 1084587]]
  | .k3 => [[2021422057, 1826992351, 1977753457], [1476728729, 0, 1155643113], [65338, 0, 64636]]
  | .k3s => [[1287767370, 1045931779, 58150106]]
  | .k4 => [[2001982722, 1412284257, 1155380217, 1668339922]]
  | .k5 => [[107374182, 0, 0, 0, 104480]]
  | .k5s => [[2068619238, 2138332912, 671754166, 1442240992, 1526958817]]

/-- Built-in parameter sets with period `(m^n - 1) / 2` only: the defaults of mrg3s, yarn3s, mrg5s and
yarn5s. -/
def halfPeriod : Kind → List (List Int)
  | .k3s => [[2025213985, 1112953677, 2038969601]]
  | .k5s => [[1053223373, 1530818118, 1612122482, 133497989, 573245311]]
  | _ => []

/-- The documented modulus of an engine (doc: 2^31 - 1, and two primes of Sophie Germain type below). -/
def documentedModulus : Kind → Nat
  | .k2 | .k3 | .k4 | .k5 => 2 ^ 31 - 1
  | .k3s => 2 ^ 31 - 21069
  | .k5s => 2 ^ 31 - 22641

/-- The documented base of the exponentiation in the yarn engines. -/
def documentedBase : Kind → Nat
  | .k2 | .k3 | .k4 | .k5 => 123567893
  | .k3s => 1616076847
  | .k5s => 889744251

end Trng.Spec
