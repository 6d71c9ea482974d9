/-
Outcomes of C++ code in the model.
-/
namespace Trng

/-- What running a member function on an object of type `σ` can lead to:
* `ok a`     – it returned, the object (or value) is now `a`;
* `throws a` – an exception left the function, the object is then in state `a`;
* `ub`       – the abstract machine executed undefined behaviour. -/
inductive Outcome (σ : Type) where
  | ok : σ → Outcome σ
  | throws : σ → Outcome σ
  | ub : Outcome σ
deriving DecidableEq, Repr

/-- A computation that can only go wrong by undefined behaviour, as an `Outcome`. -/
def Outcome.ofOption {σ : Type} : Option σ → Outcome σ
  | some a => .ok a
  | none => .ub

end Trng
