import Verif.Model.XReal

/-! What it means for a parameter class that its objects are determined by the values of the parameters. -/
namespace Trng

/-- A parameter class (`param_type` of a distribution): the values of its parameters in the order of the constructor, its
objects, the calls of its setters, and the operations.  `none` is undefined behaviour or an endless loop. -/
structure ParamClass where
  /-- the values of the parameters, in the order of the arguments of the constructor -/
  Args : Type
  /-- the members of an object -/
  State : Type
  /-- a call of one of the setters: which one, and its argument -/
  Setter : Type
  /-- the constructor with values for all parameters -/
  construct : Args → Option State
  /-- the default constructor -/
  default : State
  /-- the values that the getters return -/
  get : State → Args
  /-- the setters -/
  set : Setter → State → Option State
  /-- `operator==` -/
  eq : State → State → Prop
  /-- specification: what a call of a setter means for the values of the parameters -/
  assign : Setter → Args → Args
  /-- specification: values that compare equal to themselves -/
  comparable : Args → Prop

namespace Spec

/-- The setter of the only parameter. -/
def assign1 {α : Type} (x : α) (_ : α) : α := x
/-- The setters of two parameters: each replaces the parameter at its place. -/
def assign2 {α β : Type} : α ⊕ β → α × β → α × β
  | .inl x, (_, b) => (x, b)
  | .inr y, (a, _) => (a, y)
/-- The setters of three parameters. -/
def assign3 {α β γ : Type} : α ⊕ β ⊕ γ → α × β × γ → α × β × γ
  | .inl x, (_, b, c) => (x, b, c)
  | .inr (.inl y), (a, _, c) => (a, y, c)
  | .inr (.inr z), (a, b, _) => (a, b, z)
/-- The setters of four parameters. -/
def assign4 {α β γ δ : Type} : α ⊕ β ⊕ γ ⊕ δ → α × β × γ × δ → α × β × γ × δ
  | .inl x, (_, b, c, d) => (x, b, c, d)
  | .inr (.inl y), (a, _, c, d) => (a, y, c, d)
  | .inr (.inr (.inl z)), (a, b, _, d) => (a, b, z, d)
  | .inr (.inr (.inr t)), (a, b, c, _) => (a, b, c, t)

variable (C : ParamClass)

/-- What a program does to the parameters of a distribution object: it calls a setter, or assigns, with `param(P)`, a parameter
object constructed with values `a`. -/
inductive Op
  | set (s : C.Setter)
  | param (a : C.Args)

/-- The object after the operations. -/
def run (P : C.State) : List (Op C) → Option C.State
  | [] => some P
  | .set s :: ops => (C.set s P).bind fun P' => run P' ops
  | .param a :: ops => (C.construct a).bind fun P' => run P' ops

/-- The values of the parameters after the operations. -/
def assigned (a : C.Args) : List (Op C) → C.Args
  | [] => a
  | .set s :: ops => assigned (C.assign s a) ops
  | .param b :: ops => assigned b ops

/-- The objects that a program can make. -/
def Reachable (P : C.State) : Prop := ∃ a P₀ ops, C.construct a = some P₀ ∧ run C P₀ ops = some P

end Spec
end Trng
