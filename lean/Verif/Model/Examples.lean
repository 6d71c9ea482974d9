import Verif.Model.MRG
import Verif.Model.Uniform
/-!
Model of the parallel programs in /repo/examples: pi.cc, pi_block_openmp.cc, pi_block_mpi.cc, pi_block_tbb.cc,
pi_block_cuda.cu, pi_block_hip.hip, pi_leap_openmp.cc, pi_leap_mpi.cc, pi_leap_cuda.cu, site_percolation_embarrassing.cc
and site_percolation_fine-grained.cc.

Simplifications: the constants `samples`, `number_of_realizations`, `Nx`, `Ny` and `P` of the programs are parameters;
the analysis of the lattices is omitted in the sources; the runtime (MPI, OpenMP, TBB, CUDA) is represented by what it
promises: each of `size` ranks runs once, and the results are added in an arbitrary order.  `none` is undefined
behaviour (overflow of a signed integer) or an exception of `split`.
-/
namespace Trng.Examples
open FP

/-- What the programs use of `trng::yarn2 r; trng::uniform01_dist<> u;`. -/
structure Engine (σ : Type) where
  /-- `u(r)` and the engine afterwards -/
  u : σ → ℚ × σ
  /-- `r.jump(n)` -/
  jump : σ → BitVec 64 → σ
  /-- `r.split(s, n)` -/
  split : σ → BitVec 32 → BitVec 32 → Outcome σ

/-- `yarn2`, ..., `yarn5s` as uniformxx.hpp sees them; the lookup of the power (`MRG.callYarn`) never fails in
reachable states (C30). -/
def yarnGen (K : Kind) : Uniform.Gen (MRG K.order) :=
  ⟨fun e => (((MRG.callYarn K.modulus K.gen e).1.getD 0).toNat, (MRG.callYarn K.modulus K.gen e).2), 0, K.modulus - 1⟩

/-- A yarn engine together with `uniform01_dist<F>` (uniform01_dist.hpp:103-106). -/
def yarn (K : Kind) (F : Fmt) : Engine (MRG K.order) :=
  ⟨Uniform.uniformco F (yarnGen K), MRG.jump K.modulus, MRG.split K.modulus⟩

/-! ### the values of C++ integer expressions -/

/-- The value of an `int` expression. -/
def int (x : ℤ) : Option ℤ := if -2 ^ 31 ≤ x ∧ x < 2 ^ 31 then some x else none
/-- The value of a `long` expression (64 bits). -/
def long (x : ℤ) : Option ℤ := if -2 ^ 63 ≤ x ∧ x < 2 ^ 63 then some x else none

variable {σ : Type}

/-! ### the computation of pi -/

/-- pi.cc:45-47: one point; the result tells whether it is in the circle. -/
def point (F : Fmt) (x y : ℚ) : Bool := decide (F.rnd (F.rnd (x * x) + F.rnd (y * y)) ≤ 1)

/-- pi.cc:44-48 the loop with `n` turns (the same text in all block splitting programs). -/
def piLoop (F : Fmt) (A : Engine σ) : Nat → σ → ℤ → ℤ
  | 0, _, inside => inside
  | n + 1, r, inside =>
    let x := A.u r
    let y := A.u x.2
    piLoop F A n y.2 (if point F x.1 y.1 then inside + 1 else inside)

/-- pi.cc:38-51: the value of `in` at the end. -/
def piSeq (F : Fmt) (A : Engine σ) (r : σ) (samples : ℤ) : ℤ := piLoop F A samples.toNat r 0

/-- pi_block_openmp.cc:45-55 = pi_block_mpi.cc:45-54 = pi_block_cuda.cu:40-49 =
pi_block_hip.hip:42-51: what rank number `rank` counts. -/
def piBlockRank (F : Fmt) (A : Engine σ) (r : σ) (samples size rank : ℤ) : Option ℤ := do
  let p ← long (rank * samples)
  let lo := p.tdiv size
  let j ← long (2 * lo)
  let r := A.jump r (BitVec.ofInt 64 j)
  let next ← int (rank + 1)
  let q ← long (next * samples)
  let hi := q.tdiv size
  return piLoop F A (hi - lo).toNat r 0

/-- The reduction (`reduction(+ : in)`, `MPI_Reduce`, the sum over `in[rank]`); `order` lists the ranks in the order in
which their results are added. -/
def reduce (f : ℤ → Option ℤ) : List ℤ → Option ℤ
  | [] => some 0
  | rank :: order => do
    let a ← f rank
    let b ← reduce f order
    return a + b

/-- How TBB may run `parallel_reduce` (pi_block_tbb.cc:67): a body works on a range, on several ranges one after the
other, or is forked: a new body made with the splitting constructor does the second part and is joined. -/
inductive Task where
  | range (lo hi : Nat)
  | seq (s t : Task)
  | fork (s t : Task)

/-- pi_block_tbb.cc:46-59: `in` of a body after a task, started with the value `inside`. -/
def piTask (F : Fmt) (A : Engine σ) (r : σ) : Task → ℤ → ℤ
  | .range lo hi, inside => piLoop F A (hi - lo) (A.jump r (BitVec.ofNat 64 (2 * lo))) inside
  | .seq s t, inside => piTask F A r t (piTask F A r s inside)
  | .fork s t, inside => piTask F A r s inside + piTask F A r t 0

/-- pi_leap_openmp.cc:55-59 = pi_leap_mpi.cc:54-58: the loop over `i`; the first argument bounds the number of turns. -/
def leapLoop (F : Fmt) (A : Engine σ) (samples size : ℤ) : Nat → ℤ → σ → σ → ℤ → Option ℤ
  | 0, _, _, _, _ => none
  | fuel + 1, i, rx, ry, inside =>
    if i < samples then do
      let x := A.u rx
      let y := A.u ry
      let i ← long (i + size)
      leapLoop F A samples size fuel i x.2 y.2 (if point F x.1 y.1 then inside + 1 else inside)
    else some inside

/-- `split` as a statement of the programs: an exception ends them. -/
def splitTo (A : Engine σ) (r : σ) (s n : ℤ) : Option σ :=
  match A.split r (BitVec.ofInt 32 s) (BitVec.ofInt 32 n) with
  | .ok r => some r
  | _ => none

/-- pi_leap_openmp.cc:45-59 = pi_leap_mpi.cc:45-58. -/
def piLeapRank (F : Fmt) (A : Engine σ) (r : σ) (samples size rank : ℤ) : Option ℤ := do
  let rx ← splitTo A r 2 0
  let ry ← splitTo A r 2 1
  let rx ← splitTo A rx size rank
  let ry ← splitTo A ry size rank
  leapLoop F A samples size (samples.toNat + 1) rank rx ry 0

/-- pi_leap_cuda.cu:44-48: the loop with `n` turns. -/
def cudaLeapLoop (F : Fmt) (A : Engine σ) : Nat → σ → σ → ℤ → ℤ
  | 0, _, _, inside => inside
  | n + 1, rx, ry, inside =>
    let x := A.u rx
    let y := A.u ry
    cudaLeapLoop F A n x.2 y.2 (if point F x.1 y.1 then inside + 1 else inside)

/-- pi_leap_cuda.cu:39-49, 56-61: what thread number `rank` counts (the host splits the engines). -/
def piLeapCudaRank (F : Fmt) (A : Engine σ) (r : σ) (samples size rank : ℤ) : Option ℤ := do
  let rx ← splitTo A r 2 0
  let ry ← splitTo A r 2 1
  let rx ← splitTo A rx size rank
  let ry ← splitTo A ry size rank
  let p ← long (rank * samples)
  let q ← long ((rank + 1) * samples)
  return cudaLeapLoop F A (q.tdiv size - p.tdiv size).toNat rx ry 0

/-! ### site percolation -/

/-- site_percolation_embarrassing.cc:56-60 = site_percolation_fine-grained.cc:70-76: the inner loop with `n` turns. -/
def fillRow (A : Engine σ) (P : ℚ) : Nat → σ → List Bool × σ
  | 0, R => ([], R)
  | n + 1, R =>
    let v := A.u R
    let rest := fillRow A P n v.2
    (decide (v.1 < P) :: rest.1, rest.2)

/-- site_percolation_embarrassing.cc:55-60: both loops; element `x` of the list is the row `site[x]`. -/
def fillRows (A : Engine σ) (P : ℚ) (Ny : Nat) : Nat → σ → List (List Bool) × σ
  | 0, R => ([], R)
  | n + 1, R =>
    let row := fillRow A P Ny R
    let rest := fillRows A P Ny n row.2
    (row.1 :: rest.1, rest.2)

/-- site_percolation_embarrassing.cc:53-65: the lattices that one rank analyses, with the number `i` of the realisation.
The first argument bounds the number of turns. -/
def percolationLoop (A : Engine σ) (P : ℚ) (Nx Ny N size : ℤ) :
    Nat → ℤ → σ → Option (List (ℤ × List (List Bool)))
  | 0, _, _ => none
  | fuel + 1, i, R =>
    if i < N then do
      let s := fillRows A P Ny.toNat Nx.toNat R
      let sweep ← int (Nx * Ny)
      let skip ← int ((size - 1) * sweep)
      let R := A.jump s.2 (BitVec.ofInt 64 skip)
      let next ← int (i + size)
      let rest ← percolationLoop A P Nx Ny N size fuel next R
      return (i, s.1) :: rest
    else some []

/-- site_percolation_embarrassing.cc:49-65. -/
def percolationRank (A : Engine σ) (P : ℚ) (R : σ) (Nx Ny N size rank : ℤ) : Option (List (ℤ × List (List Bool))) := do
  let sweep ← int (Nx * Ny)
  let skip ← int (rank * sweep)
  percolationLoop A P Nx Ny N size (N.toNat + 1) rank (A.jump R (BitVec.ofInt 64 skip))

/-- site_percolation_fine-grained.cc:68-79 (`site` is filled row by row): the loop over `y` with `n` turns. -/
def fineRows (A : Engine σ) (P : ℚ) (Nx Nxl : ℤ) : Nat → σ → List (List Bool) × σ
  | 0, R => ([], R)
  | n + 1, R =>
    let row := fillRow A P Nxl.toNat R
    let rest := fineRows A P Nx Nxl n (A.jump row.2 (BitVec.ofInt 64 (Nx - Nxl)))
    (row.1 :: rest.1, rest.2)

/-- site_percolation_fine-grained.cc:66-84: `n` realisations; the local lattices, one row per `y`. -/
def fineLoop (A : Engine σ) (P : ℚ) (Nx Ny Nxl Nyl : ℤ) : Nat → σ → Option (List (List (List Bool)))
  | 0, _ => some []
  | n + 1, R => do
    let s := fineRows A P Nx Nxl Nyl.toNat R
    let skip ← int (Nx * (Ny - Nyl))
    let rest ← fineLoop A P Nx Ny Nxl Nyl n (A.jump s.2 (BitVec.ofInt 64 skip))
    return s.1 :: rest

/-- The section of one process in one dimension: site_percolation_fine-grained.cc:59-60. -/
def section0 (N c d : ℤ) : Option (ℤ × ℤ) := do
  let p ← int (c * N)
  let next ← int (c + 1)
  let q ← int (next * N)
  return (p.tdiv d, q.tdiv d)

/-- site_percolation_fine-grained.cc:43-84: the lattices of the process with coordinates `(cx, cy)` in a grid of
`dx * dy` processes, together with the corner `(x0, y0)` of its section. -/
def fineRank (A : Engine σ) (P : ℚ) (R : σ) (Nx Ny : ℤ) (N : Nat) (dx dy cx cy : ℤ) :
    Option ((ℤ × ℤ) × List (List (List Bool))) := do
  let (x0, x1) ← section0 Nx cx dx
  let (y0, y1) ← section0 Ny cy dy
  let a ← int (Nx * y0)
  let skip ← int (a + x0)
  let l ← fineLoop A P Nx Ny (x1 - x0) (y1 - y0) N (A.jump R (BitVec.ofInt 64 skip))
  return ((x0, y0), l)

end Trng.Examples
