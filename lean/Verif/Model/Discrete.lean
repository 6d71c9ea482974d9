import Verif.Model.IntMath
import Verif.Model.Uniform
import Mathlib.Algebra.Order.Field.Basic

/-! Model of `utility::discrete` (trng/utility.hpp), discrete_dist (trng/discrete_dist.hpp) and
fast_discrete_dist (trng/fast_discrete_dist.hpp).

`double` is an ordered field `α` together with a rounding function `rnd` that is applied to the result of every
arithmetic operation; `rnd = id` is exact arithmetic, `α = ℚ` with `rnd = F.rnd` is floating-point arithmetic (without
NaN, infinities and subnormal numbers, see Model/Float.lean).  A vector is a list.  `none` is undefined behaviour
(access outside a vector); the fuel of each loop is enough, running out of it would give `none`, too. -/
namespace Trng.Discrete
open IntMath

variable {α : Type}

/-- `v[i] = x` on a vector. -/
def set? {β : Type} (l : List β) (i : Nat) (x : β) : Option (List β) := if i < l.length then some (l.set i x) else none

/-! ### utility::discrete -/

section
variable [LT α] [LE α] [DecidableLT α] [DecidableLE α]

/-- utility.hpp:205-211, the loop of `utility::discrete`. -/
def searchLoop (x : α) (t : List α) : (fuel : Nat) → (i1 i2 : Nat) → Option Nat
  | 0, _, _ => none
  | fuel + 1, i1, i2 =>
    if i2 - i1 > 1 then
      t[(i2 + i1) / 2]?.bind fun v =>
        if x ≤ v then searchLoop x t fuel i1 ((i2 + i1) / 2) else searchLoop x t fuel ((i2 + i1) / 2) i2
    else some i2

/-- utility.hpp:199-213 `utility::discrete(x, first, last)`; the range is never empty in a defined execution. -/
def search (x : α) (t : List α) : Option Nat :=
  t[0]?.bind fun t0 => if x < t0 then some 0 else searchLoop x t t.length 0 (t.length - 1)

end

variable [Field α] [LinearOrder α]

/-! ### discrete_dist -/

/-- discrete_dist.hpp:55-59, the members of `discrete_dist::param_type`. -/
structure WTree (α : Type) where
  P : List α
  N : Nat
  layers : Nat
  offset : Nat
deriving DecidableEq

/-- discrete_dist.hpp:82-86, the loop of `update_layer`. -/
def layerLoop (rnd : α → α) (last : Nat) : (fuel : Nat) → (i : Nat) → List α → Option (List α)
  | 0, _, _ => none
  | fuel + 1, i, P =>
    if i < last then
      P[i]?.bind fun a =>
        (if i + 1 < last then P[i + 1]?.map fun b => rnd (a + b) else some a).bind fun v =>
          (set? P ((i - 1) / 2) v).bind fun P' => layerLoop rnd last fuel (i + 2) P'
    else some P

/-- discrete_dist.hpp:80-87 `update_layer(layer, n)`. -/
def updateLayer (rnd : α → α) (layer n : Nat) (P : List α) : Option (List α) :=
  layerLoop rnd (pow2 layer - 1 + n) (n + 1) (pow2 layer - 1) P

/-- discrete_dist.hpp:94-97, the loop of `update_all_layers`. -/
def lowerLayers (rnd : α → α) : (layer : Nat) → List α → Option (List α)
  | 0, P => some P
  | l + 1, P => do lowerLayers rnd l (← updateLayer rnd (l + 1) (pow2 (l + 1)) P)

/-- discrete_dist.hpp:88-98 `update_all_layers`. -/
def updateAllLayers (rnd : α → α) (N : Nat) : (layers : Nat) → List α → Option (List α)
  | 0, P => some P
  | l + 1, P => do lowerLayers rnd l (← updateLayer rnd (l + 1) N P)

/-- discrete_dist.hpp:61-70, the constructor of `param_type` from a vector of weights.  (`std::copy_backward` with
`offset_ = 0`, i.e. for at most one weight, is modelled as leaving the vector unchanged.) -/
def WTree.construct (rnd : α → α) (w : List α) : Option (WTree α) :=
  let layers := log2Ceil w.length
  let offset := pow2 layers - 1
  (updateAllLayers rnd w.length layers (List.replicate offset 0 ++ w)).map fun P => ⟨P, w.length, layers, offset⟩

/-- discrete_dist.hpp:130-139, the loop of `operator()`. -/
def descend (rnd : α → α) (offset : Nat) (P : List α) : (fuel : Nat) → (u : α) → (x : Nat) → Option Nat
  | 0, _, _ => none
  | fuel + 1, u, x =>
    if x < offset then
      P[2 * x + 1]?.bind fun l =>
        if u < l then descend rnd offset P fuel u (2 * x + 1) else descend rnd offset P fuel (rnd (u - l)) (2 * x + 2)
    else some x

/-- discrete_dist.hpp:126-141 `operator()(r)` for a non-empty distribution, as a function of the deviate `c` that
`uniformco` returns. -/
def WTree.draw (rnd : α → α) (T : WTree α) (c : α) : Option ℤ := do
  let p0 ← T.P[0]?
  let x ← descend rnd T.offset T.P (T.offset + 1) (rnd (c * p0)) 0
  return (x : ℤ) - T.offset

/-- discrete_dist.hpp:125-141 `operator()(r)`. -/
def WTree.sample {σ : Type} (F : FP.Fmt) (T : WTree ℚ) (G : Uniform.Gen σ) (s : σ) : Option ℤ × σ :=
  if T.N = 0 then (some (-1), s)
  else (T.draw F.rnd (Uniform.uniformco F G s).1, (Uniform.uniformco F G s).2)

/-- discrete_dist.hpp:156-159, the loop of `param(x, p)`. -/
def raise (rnd : α → α) : (fuel : Nat) → (x : Nat) → List α → Option (List α)
  | 0, _, _ => none
  | fuel + 1, x, P => do
    let a ← P[2 * ((x - 1) / 2) + 1]?
    let b ← P[2 * ((x - 1) / 2) + 2]?
    let P' ← set? P ((x - 1) / 2) (rnd (a + b))
    if (x - 1) / 2 > 0 then raise rnd fuel ((x - 1) / 2) P' else some P'

/-- discrete_dist.hpp:152-161 `param(x, p)`, for non-negative `x`. -/
def WTree.setWeight (rnd : α → α) (T : WTree α) (x : Nat) (p : α) : Option (WTree α) :=
  (set? T.P (x + T.offset) p).bind fun P =>
    (if x + T.offset > 0 then raise rnd (x + T.offset + 1) (x + T.offset) P else some P).map fun P' => { T with P := P' }

/-- discrete_dist.hpp:163-165 `pdf`. -/
def WTree.pdf (rnd : α → α) (T : WTree α) (x : ℤ) : Option α :=
  if x < 0 ∨ x ≥ T.N then some 0 else do
    return rnd ((← T.P[x.toNat + T.offset]?) / (← T.P[0]?))

/-- `std::accumulate(first, last, 0.0)`. -/
def accumulate (rnd : α → α) (l : List α) : α := l.foldl (fun a x => rnd (a + x)) 0

/-- discrete_dist.hpp:167-175 `cdf`. -/
def WTree.cdf (rnd : α → α) (T : WTree α) (x : ℤ) : Option α :=
  if x < 0 then some 0
  else if x < T.N then do return rnd (accumulate rnd ((T.P.drop T.offset).take (x.toNat + 1)) / (← T.P[0]?))
  else some 1

/-! ### fast_discrete_dist -/

/-- fast_discrete_dist.hpp:62-67, the members of `fast_discrete_dist::param_type`. -/
structure Alias (α : Type) where
  P : List α
  F : List α
  L : List Nat
  N : Nat
deriving DecidableEq

/-- fast_discrete_dist.hpp:85-94, the loop that pairs small (`S`) with large (`G`) entries.  The stacks are lists
with the back of the vector first. -/
def aliasLoop (rnd : α → α) : (fuel : Nat) → (S G : List Nat) → (F : List α) → (L : List Nat) → Option (List α × List Nat)
  | 0, _, _, _, _ => none
  | fuel + 1, j :: S, k :: G, F, L => do
    let L' ← set? L j k
    let fk ← F[k]?
    let fj ← F[j]?
    let F' ← set? F k (rnd (fk - rnd (1 - fj)))
    if rnd (fk - rnd (1 - fj)) < 1 then aliasLoop rnd fuel (k :: S) G F' L' else aliasLoop rnd fuel S (k :: G) F' L'
  | _ + 1, _, _, F, L => some (F, L)

/-- fast_discrete_dist.hpp:71-95, the body of the constructor and the initialisers of `F`, `L`, `N`, where `src` is
the content of the constructor's argument `P` at that point and `P` the content of the member `P` (the body works on the
argument, which hides the member). -/
def Alias.body (rnd : α → α) (P src : List α) : Option (Alias α) :=
  let s := accumulate rnd src
  if s > 0 then
    let p := src.map fun v => rnd (v / s)
    let F := p.map fun v => rnd (rnd (src.length : α) * v)
    let small := fun i => decide (F.getD i 0 < 1)
    let S := ((List.range F.length).filter small).reverse
    let G := ((List.range F.length).filter fun i => !small i).reverse
    (aliasLoop rnd (F.length + 1) S G F (List.replicate src.length 0)).map fun r => ⟨P, r.1, r.2, src.length⟩
  else some ⟨P, List.replicate src.length 0, List.replicate src.length 0, src.length⟩

/-- fast_discrete_dist.hpp:69-96, the constructor as written: the argument has been moved into the member `P`, the
first member to be initialised, and is empty when `F`, `L` and `N` are initialised and the body is run. -/
def Alias.construct (rnd : α → α) (w : List α) : Option (Alias α) := Alias.body rnd w []

/-- The constructor with its evident intention: sizes and body use the weights. -/
def Alias.intended (rnd : α → α) (w : List α) : Option (Alias α) := Alias.body rnd w w

/-- fast_discrete_dist.hpp:128-132 `operator()(r)`, as a function of the deviate `c` that `uniformco` returns; `fl` is
the conversion to `int` (truncation). -/
def Alias.draw (rnd : α → α) (fl : α → Nat) (A : Alias α) (c : α) : Option ℤ := do
  let U := rnd (c * rnd (A.N : α))
  let f ← A.F[fl U]?
  if rnd (U - rnd (fl U : α)) ≤ f then return (fl U : ℤ) else return ((← A.L[fl U]?) : ℤ)

/-- fast_discrete_dist.hpp:139 `max()`. -/
def Alias.maxValue (A : Alias α) : ℤ := (A.N : ℤ) - 1

/-- fast_discrete_dist.hpp:144 `pdf` (`x >= P.N` compares as unsigned, so a negative `x` is caught by the first test). -/
def Alias.pdf (A : Alias α) (x : ℤ) : Option α := if x < 0 ∨ x ≥ A.N then some 0 else A.P[x.toNat]?

end Trng.Discrete
