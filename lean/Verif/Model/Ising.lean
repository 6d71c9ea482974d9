import Verif.Model.Uniform
import Mathlib.Analysis.SpecialFunctions.Exp

/-!
Model of /repo/examples/Ising_model.cc: the lattice and the Wolff algorithm.

`int` has 32 bits; signed overflow, an index outside the vector and a loop without end are `none`.  Not modelled: the class `timer`,
`print`, `output`, the table of exact values in `wolff_main` and the reading of the command line.
-/
namespace Trng.Ising
open Trng.Uniform FP

/-- Ising_model.cc:75-78 -/
structure Coord where
  x : ℤ
  y : ℤ
  deriving DecidableEq

/-- Ising_model.cc:83-84 the members of `lattice`. -/
structure Lattice where
  s : List ℤ
  L : ℤ
  L2 : ℤ
  deriving DecidableEq

/-- Ising_model.cc:103-104 the first loop of `pos`; the first argument bounds the number of turns. -/
def posUp (L : ℤ) : Nat → ℤ → Option ℤ
  | 0, _ => none
  | n + 1, x => if x < 0 then (int32 (x + L)).bind (posUp L n) else some x

/-- Ising_model.cc:105-106 the second loop of `pos`. -/
def posDown (L : ℤ) : Nat → ℤ → Option ℤ
  | 0, _ => none
  | n + 1, x => if x ≥ L then (int32 (x - L)).bind (posDown L n) else some x

/-- Ising_model.cc:102-108 `lattice::pos`.  A loop that makes progress at all needs at most `|x|` turns. -/
def pos (l : Lattice) (x : ℤ) : Option ℤ := do
  let x ← posUp l.L (x.natAbs + 1) x
  posDown l.L (x.natAbs + 1) x

/-- Ising_model.cc:116-125 `lattice::resize`; the result is `none` also for the exit with "negative size".  `std::vector::resize`
keeps the elements and appends zeros. -/
def resize (l : Lattice) (newL : ℤ) : Option Lattice :=
  if newL > 0 then do
    let L2 ← int32 (newL * newL)
    return ⟨l.s.take L2.toNat ++ List.replicate (L2.toNat - l.s.length) 0, newL, L2⟩
  else none

/-- Ising_model.cc:183-185 the constructor `lattice(newL)`. -/
def lattice (newL : ℤ) : Option Lattice := resize ⟨[], 0, 0⟩ newL

/-- The index `pos(r.x) + pos(r.y) * L` of Ising_model.cc:129, 140, 145. -/
def index (l : Lattice) (r : Coord) : Option Nat := do
  let x ← pos l r.x
  let y ← pos l r.y
  let q ← int32 (y * l.L)
  let i ← int32 (x + q)
  if 0 ≤ i then some i.toNat else none

/-- Ising_model.cc:139-141 `lattice::get`. -/
def get (l : Lattice) (r : Coord) : Option ℤ := do
  let i ← index l r
  l.s[i]?

/-- Ising_model.cc:144-146 `lattice::set`. -/
def set (l : Lattice) (r : Coord) (w : ℤ) : Option Lattice := do
  let i ← index l r
  if i < l.s.length then some { l with s := l.s.set i w } else none

/-- Ising_model.cc:128-130 `lattice::flipp`. -/
def flipp (l : Lattice) (r : Coord) : Option Lattice := do
  let i ← index l r
  let v ← l.s[i]?
  let w ← int32 (v * -1)
  return { l with s := l.s.set i w }

/-- Ising_model.cc:133-136 `lattice::fill`. -/
def fill (l : Lattice) (w : ℤ) : Option Lattice :=
  (List.range l.L2.toNat).foldlM (fun l i => if i < l.s.length then some { l with s := l.s.set i w } else none) l

/-- The element `s[i + j * L]` for given `i` and `j`. -/
def at? (l : Lattice) (i j : ℤ) : Option ℤ := do
  let q ← int32 (j * l.L)
  let k ← int32 (i + q)
  if 0 ≤ k then l.s[k.toNat]? else none

/-- Ising_model.cc:153 the number subtracted for site (`i`, `j`). -/
def bond (l : Lattice) (i j : ℤ) : Option ℤ := do
  let s ← at? l i j
  let i' ← int32 (i + 1)
  let i' ← pos l i'
  let a ← at? l i' j
  let j' ← int32 (j + 1)
  let j' ← pos l j'
  let b ← at? l i j'
  let c ← int32 (a + b)
  int32 (s * c)

/-- Ising_model.cc:149-155 `lattice::energy`, without rounding (the sum is an integer; below 2^53 it is exact also in the
program). -/
def energy (l : Lattice) : Option ℚ := do
  let e ← (List.range l.L.toNat).foldlM (fun (e : ℚ) (i : Nat) =>
    (List.range l.L.toNat).foldlM (fun (e : ℚ) (j : Nat) => do
      let b ← bond l i j
      return e - b) e) 0
  return e / l.L2

/-- Ising_model.cc:158-167 `lattice::magnet`, without rounding. -/
def magnet (l : Lattice) : Option ℚ := do
  let m ← (List.range l.L.toNat).foldlM (fun (m : ℚ) (i : Nat) =>
    (List.range l.L.toNat).foldlM (fun (m : ℚ) (j : Nat) => do
      let v ← at? l i j
      return if v < 0 then m - 1 else m + 1) m) 0
  return |m| / l.L2

/-- What `wolffstep` uses of the engine `R` and of the distributions `U` and `B`: the values of `U(R)` and `B(R)`. -/
structure Source (ρ : Type) where
  u : ρ → Option ℤ × ρ
  b : ρ → Bool × ρ

/-- Ising_model.cc:193-194: `U(0, s.size())` and `B(padd, true, false)` with an engine (uniform_int_dist.hpp:94-96,
bernoulli_dist.hpp:157-159). -/
def source {σ : Type} (D : Fmt) (G : Gen σ) (U : IntParam) (padd : ℚ) : Source σ :=
  ⟨U.sample D G, fun s => (decide ((uniformco D G s).1 < padd), (uniformco D G s).2)⟩

/-- Ising_model.cc:191, without rounding. -/
noncomputable def padd (T : ℝ) : ℝ := 1 - Real.exp (-2 / T)

variable {ρ : Type}

/-- The variables of `wolffstep` in the loop: `buffer`, the lattice `s` and the engine. -/
structure State (ρ : Type) where
  buffer : List Coord
  s : Lattice
  R : ρ

/-- Ising_model.cc:206-210, 213-217, 220-224, 227-231: one neighbour `r`. -/
def neighbour (A : Source ρ) (oldspin : ℤ) (r : Coord) (z : State ρ) : Option (State ρ) := do
  let v ← get z.s r
  if v = oldspin then
    let b := A.b z.R
    if b.1 then
      let s ← flipp z.s r
      return ⟨z.buffer ++ [r], s, b.2⟩
    else return { z with R := b.2 }
  else return z

/-- Ising_model.cc:205-232: the four neighbours of `r`; the last decrement restores `r` and is left out. -/
def turn (A : Source ρ) (oldspin : ℤ) (r : Coord) (z : State ρ) : Option (State ρ) := do
  let x ← int32 (r.x - 1)
  let z ← neighbour A oldspin ⟨x, r.y⟩ z
  let x ← int32 (x + 1)
  let x ← int32 (x + 1)
  let z ← neighbour A oldspin ⟨x, r.y⟩ z
  let x ← int32 (x - 1)
  let y ← int32 (r.y - 1)
  let z ← neighbour A oldspin ⟨x, y⟩ z
  let y ← int32 (y + 1)
  let y ← int32 (y + 1)
  neighbour A oldspin ⟨x, y⟩ z

/-- Ising_model.cc:202-233 the loop; the first argument bounds the number of turns, `none` if they do not suffice. -/
def loop (A : Source ρ) (oldspin : ℤ) : Nat → State ρ → Option (State ρ)
  | 0, _ => none
  | n + 1, z => match z.buffer with
    | [] => some z
    | r :: rest => do
      let z ← turn A oldspin r { z with buffer := rest }
      loop A oldspin n z

/-- Ising_model.cc:189-234 `wolffstep`: the lattice and the engine at the end.  The distributions are part of `A`. -/
def wolffstep (turns : Nat) (A : Source ρ) (R : ρ) (s : Lattice) : Option (Lattice × ρ) := do
  let (x, R) := A.u R
  let x ← x
  let (y, R) := A.u R
  let y ← y
  let oldspin ← get s ⟨x, y⟩
  let s ← flipp s ⟨x, y⟩
  let z ← loop A oldspin turns ⟨[⟨x, y⟩], s, R⟩
  return (z.s, z.R)

/-- Ising_model.cc:366-367: `n` steps. -/
def steps (turns : Nat) (A : Source ρ) : Nat → Lattice → ρ → Option (Lattice × ρ)
  | 0, s, R => some (s, R)
  | n + 1, s, R => do
    let (s, R) ← wolffstep turns A R s
    steps turns A n s R

/-- Ising_model.cc:372-377: the loop with the sums `E` and `E2` of the energy and its square, without rounding. -/
def measure (turns : Nat) (A : Source ρ) : Nat → Lattice → ρ → ℚ → ℚ → Option (ℚ × ℚ × Lattice × ρ)
  | 0, s, R, E, E2 => some (E, E2, s, R)
  | n + 1, s, R, E, E2 => do
    let (s, R) ← wolffstep turns A R s
    let q ← energy s
    measure turns A n s R (E + q) (E2 + q * q)

/-- Ising_model.cc:369-383: the loop over the simulations.  The result is the list of the numbers `E` (line 378) and `E2 - E * E`
(the factor of `c` in line 380, the other is a constant). -/
def simulations (turns : Nat) (A : Source ρ) (runs : Nat) : Nat → Lattice → ρ → Option (List (ℚ × ℚ))
  | 0, _, _ => some []
  | j + 1, s, R => do
    let (E, E2, s, R) ← measure turns A runs s R 0 0
    let E := E / runs
    let E2 := E2 / runs
    let rest ← simulations turns A runs j s R
    return (E, E2 - E * E) :: rest

/-- Ising_model.cc:355-356, 366-383 `wolff_main` with `runs < 2^30`, so that `int i` does not overflow in line 366. -/
def wolffMain (turns : Nat) (A : Source ρ) (runs : Nat) (L : ℤ) (R : ρ) : Option (List (ℚ × ℚ)) := do
  let s ← lattice L
  let s ← fill s (-1)
  let (s, R) ← steps turns A (2 * runs) s R
  simulations turns A runs 10 s R

end Trng.Ising
