import Verif.Model.Ising
import Mathlib.Data.Int.ModEq
import Mathlib.Logic.Relation
import Mathlib.Algebra.BigOperators.Fin
import Mathlib.Data.Fintype.BigOperators
import Mathlib.Data.Fintype.Pi

/-! The terms in which C90 and C91 are stated. -/
namespace Trng.Ising

/-- A lattice of `L * L` spins 1 or -1.  (46340 is the largest `L` for which `L * L` is an `int`.) -/
structure Valid (l : Lattice) : Prop where
  pos : 0 < l.L
  le : l.L ≤ 46340
  sq : l.L2 = l.L * l.L
  len : l.s.length = l.L2.toNat
  spins : ∀ w ∈ l.s, w = 1 ∨ w = -1

/-- An `int`. -/
def IsInt (x : ℤ) : Prop := -2 ^ 31 ≤ x ∧ x ≤ 2 ^ 31 - 1

/-- The same site of a torus of size `L`. -/
def Same (L : ℤ) (a b : Coord) : Prop := a.x ≡ b.x [ZMOD L] ∧ a.y ≡ b.y [ZMOD L]

/-- Neighbours on a torus of size `L`. -/
def Adjacent (L : ℤ) (a b : Coord) : Prop :=
  Same L b ⟨a.x - 1, a.y⟩ ∨ Same L b ⟨a.x + 1, a.y⟩ ∨ Same L b ⟨a.x, a.y - 1⟩ ∨ Same L b ⟨a.x, a.y + 1⟩

/-- The coordinates of a site. -/
def IsSite (L : ℤ) (a : Coord) : Prop := 0 ≤ a.x ∧ a.x < L ∧ 0 ≤ a.y ∧ a.y < L

/-- `C` consists of what can be reached from `a` by steps between neighbours within `C`. -/
def ConnectedFrom (L : ℤ) (a : Coord) (C : Set Coord) : Prop :=
  a ∈ C ∧ ∀ b ∈ C, Relation.ReflTransGen (fun u v => Adjacent L u v ∧ v ∈ C) a b

/-! ### probabilities -/

/-- The lattice with given spins. -/
def lat (L : ℕ) (c : Fin (L * L) → Bool) : Lattice := ⟨List.ofFn fun i => if c i then 1 else -1, L, (L * L : ℕ)⟩

/-- Random numbers from two lists: the coordinates drawn with `U`, and the values drawn with `B` (`false` after the end). -/
def drawn : Source (List ℤ × List Bool) :=
  ⟨fun R => (R.1.head?, (R.1.tail, R.2)), fun R => (R.2.headD false, (R.1, R.2.tail))⟩

/-- The probability that `wolffstep` changes the lattice with spins `c` to the one with spins `c'`, if the two coordinates of the first
site are uniform in `{0, ..., L-1}` and the `m` draws of `B` are true with probability `p`, all independent. -/
noncomputable def stepProb (L m : ℕ) (p : ℝ) (c c' : Fin (L * L) → Bool) : ℝ :=
  ∑ x : Fin L, ∑ y : Fin L, (1 / L : ℝ) * (1 / L) * ∑ b : Fin m → Bool, (∏ i, if b i then p else 1 - p) *
    if (wolffstep (L * L + 1) drawn ([(x : ℤ), (y : ℤ)], List.ofFn b) (lat L c)).map Prod.fst = some (lat L c') then 1 else 0

/-- The total energy of the lattice with spins `c`: `energy()` is that per site. -/
noncomputable def totalEnergy (L : ℕ) (c : Fin (L * L) → Bool) : ℝ := ((energy (lat L c)).getD 0 : ℚ) * (L * L)

/-- Boltzmann's weight at temperature `T`. -/
noncomputable def boltzmann (L : ℕ) (T : ℝ) (c : Fin (L * L) → Bool) : ℝ := Real.exp (-totalEnergy L c / T)

end Trng.Ising
