/-
Specification vocabulary shared by all engines.  Nothing in this file refers to the model:
an engine is any type `σ` with a function `call : σ → α × σ` (what `operator()` returns, and
the object afterwards).
-/
namespace Trng.Spec

variable {σ α : Type}

/-- The object after `n` calls of `operator()`. -/
def afterCalls (call : σ → α × σ) : Nat → σ → σ
  | 0, e => e
  | n + 1, e => afterCalls call n (call e).2

/-- The value returned by call number `k` (the first call is number 0). -/
def nth (call : σ → α × σ) (e : σ) (k : Nat) : α :=
  (call (afterCalls call k e)).1

/-- The first `n` values returned by `e`. -/
def firstOutputs (call : σ → α × σ) : Nat → σ → List α
  | 0, _ => []
  | n + 1, e => (call e).1 :: firstOutputs call n (call e).2

/-- `e'` delivers the leapfrog subsequence of `e` with stride `s` and offset `n`. -/
def Leapfrog (call : σ → α × σ) (e e' : σ) (s n : Nat) : Prop :=
  ∀ k : Nat, nth call e' k = nth call e (k * s + n)

/-- `e` and `e'` cannot be told apart by calling them. -/
def SameFuture (call : σ → α × σ) (e e' : σ) : Prop :=
  ∀ k : Nat, nth call e k = nth call e' k

/-- `e` has exact period `T`: it returns to itself after `T > 0` calls, and not earlier. -/
def ExactPeriod (call : σ → α × σ) (e : σ) (T : Nat) : Prop :=
  0 < T ∧ afterCalls call T e = e ∧ ∀ t, 0 < t → t < T → afterCalls call t e ≠ e

/-- The sequence of returned values has exact period `T`. -/
def ExactOutputPeriod (call : σ → α × σ) (e : σ) (T : Nat) : Prop :=
  0 < T ∧ (∀ k, nth call e (k + T) = nth call e k) ∧
    ∀ t, 0 < t → t < T → ∃ k, nth call e (k + t) ≠ nth call e k

/-- Several engines (numbered by `Nat`) are called in the order given by a schedule, i.e. a list
of engine numbers; the result lists the returned values in the order of the calls. -/
def runSchedule (call : σ → α × σ) : List Nat → (Nat → σ) → List α
  | [], _ => []
  | j :: js, E =>
    (call (E j)).1 :: runSchedule call js (fun i => if i = j then (call (E j)).2 else E i)

/-- How often engine `j` is called by the first `p` entries of a schedule. -/
def callsBefore (sched : List Nat) (p j : Nat) : Nat := (sched.take p).count j

/-- The values delivered by the streams `E 0, ..., E (s-1)` under any schedule are exactly the
elements of the output sequence of `e`: the call at position `p` of the schedule, on stream
`j = sched[p]`, returns element number `c * s + j` where `c` counts the earlier calls on `j`;
no element is delivered twice, and element `i` is delivered as soon as stream `i % s` has been
called more than `i / s` times. -/
def PartitionedBy (call : σ → α × σ) (e : σ) (s : Nat) (E : Nat → σ) : Prop :=
  ∀ sched : List Nat, (∀ j ∈ sched, j < s) →
    let idx := fun p => callsBefore sched p (sched.getD p 0) * s + sched.getD p 0
    (∀ p, p < sched.length → (runSchedule call sched E)[p]? = some (nth call e (idx p))) ∧
    (∀ p q, p < sched.length → q < sched.length → idx p = idx q → p = q) ∧
    (∀ i, i / s < sched.count (i % s) → ∃ p, p < sched.length ∧ idx p = i)

end Trng.Spec
