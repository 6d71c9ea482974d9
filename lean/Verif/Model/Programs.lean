import Verif.Model.Discrete
import Verif.Model.Examples
/-!
Model of the sequential programs discrete_dist.cc, discrete_dist_c_style.cc, bernoulli_dist.cc, correlated_normal_dist.cc,
stl_container.cc and time.cc in /repo/examples.

Simplifications: the constants of the programs (weights, probability, numbers of samples, limits) are parameters; what
the programs print is represented by the numbers that are printed; the clock of time.cc and `std::shuffle` are not
modelled.  `none` is undefined behaviour (access outside of a vector, overflow of a signed integer).
-/
namespace Trng.Programs
open FP Uniform Discrete

variable {σ : Type}

/-- discrete_dist.cc:50-53 = discrete_dist_c_style.cc:50-53: the loop with `n` turns; `draw` is `dist(r)`. -/
def countLoop (draw : σ → Option ℤ × σ) : Nat → σ → List ℤ → Option (List ℤ)
  | 0, _, count => some count
  | n + 1, r, count => do
    let x ← (draw r).1
    if x < 0 then none else do
      let old ← count[x.toNat]?
      let new ← Examples.int (old + 1)
      countLoop draw n (draw r).2 (count.set x.toNat new)

/-- discrete_dist.cc:41-53 = discrete_dist_c_style.cc:40-53: `count` at the end, for the weights `p`. -/
def discreteCount (D : Fmt) (G : Gen σ) (p : List ℚ) (samples : Nat) (r : σ) : Option (List ℤ) := do
  let dist ← WTree.construct D.rnd p
  countLoop (dist.sample D G) samples r (List.replicate p.length 0)

/-- bernoulli_dist.cc:40-53: `count` at the end, for the probability `p`; `coin::head` is 0, `coin::tail` is 1. -/
def bernoulliCount (D : Fmt) (G : Gen σ) (p : ℚ) (samples : Nat) (r : σ) : Option (List ℤ) :=
  countLoop (fun r =>
    let x := (⟨p, 0, 1⟩ : BernoulliParam Nat).sample D G r
    (some (if x.1 = 0 then 0 else 1), x.2)) samples r [0, 0]

/-- correlated_normal_dist.cc:45-48: the mean as the program computes it; `n` is the size as a `double`. -/
def mean (rnd : ℚ → ℚ) (n : ℚ) (v : List ℚ) : ℚ := v.foldl (fun m x => rnd (m + rnd (x / n))) 0

/-- correlated_normal_dist.cc:42-52 `covariance`. -/
def covariance (rnd : ℚ → ℚ) (v1 v2 : List ℚ) : Option ℚ :=
  if v2.length < v1.length then none
  else
    let n := rnd v1.length
    let m1 := mean rnd n v1
    let m2 := mean rnd n (v2.take v1.length)
    some ((v1.zip v2).foldl (fun c x => rnd (c + rnd (rnd (rnd (x.1 - m1) * rnd (x.2 - m2)) / n))) 0)

/-- `std::generate` over a vector with `n` elements (stl_container.cc:60, 63); the loop stl_container.cc:55-56 does the
same.  `draw` is `U(R)`: `std::bind` copies the distribution and refers to the engine. -/
def generate (draw : σ → Option ℤ × σ) : Nat → σ → Option (List ℤ × σ)
  | 0, R => some ([], R)
  | n + 1, R => do
    let x ← (draw R).1
    let (l, R) ← generate draw n (draw R).2
    return (x :: l, R)

/-- stl_container.cc:50-64: what is printed before the shuffling, for `uniform_int_dist U(a, b)` and vectors with `n` and
`m` elements. -/
def stlContainer (D : Fmt) (G : Gen σ) (a b : ℤ) (n m : Nat) (R : σ) : Option (List ℤ × List ℤ × List ℤ) := do
  let U ← IntParam.mk' a b
  let (v, R) ← generate (U.sample D G) n R
  let (w1, R) ← generate (U.sample D G) m R
  let (w2, _) ← generate (U.sample D G) m R
  return (v, w1, w2)

/-- time.cc:98-103 `time_plain` for an engine with `result_type` `int32_t`: the sum after `n` turns. -/
def timePlain (call : σ → ℤ × σ) : Nat → σ → ℤ → Option ℤ
  | 0, _, s => some s
  | n + 1, r, s => do
    let s ← Examples.int (s + (call r).1)
    timePlain call n (call r).2 s

end Trng.Programs
