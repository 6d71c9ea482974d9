import Verif.Model.Stream
import Verif.Spec.Numeral

/-! What the text of an engine is: `[name (p p ...) (s s ...)]`, where the `p` and `s` are numbers. -/
namespace Trng.StreamSpec
open Trng.Stream Spec

/-- The characters skipped before the text. -/
def Blank (c : Char) : Prop := c = ' ' ∨ c = '\t' ∨ c = '\n'
/-- White space. -/
def White (c : Char) : Prop := c = ' ' ∨ c = '\t' ∨ c = '\n' ∨ c = '\x0b' ∨ c = '\x0c' ∨ c = '\r'

/-- A number that is part of an engine. -/
inductive Field where
  | unsigned (w : Nat) (v : BitVec w)
  | int (v : Int)
  | uint128 (v : BitVec 128)

/-- `t` is a text for the number: digits of the value; for built-in types a sign is possible (minus means modulo 2^w for
an unsigned type), for `uint128` white space. -/
def Field.Text : Field → List Char → Prop
  | .unsigned w v, t => ∃ sign ds, t = sign ++ ds ∧ ds ≠ [] ∧ (∀ c ∈ ds, IsDigit 10 c) ∧ numeral 10 ds < 2 ^ w ∧
      ((sign = [] ∨ sign = ['+']) ∧ v = BitVec.ofNat w (numeral 10 ds) ∨ sign = ['-'] ∧ v = -BitVec.ofNat w (numeral 10 ds))
  | .int v, t => ∃ sign ds, t = sign ++ ds ∧ ds ≠ [] ∧ (∀ c ∈ ds, IsDigit 10 c) ∧ -2 ^ 31 ≤ v ∧ v < 2 ^ 31 ∧
      ((sign = [] ∨ sign = ['+']) ∧ v = numeral 10 ds ∨ sign = ['-'] ∧ v = -numeral 10 ds)
  | .uint128 v, t => ∃ white ds, t = white ++ ds ∧ (∀ c ∈ white, White c) ∧ ds ≠ [] ∧ (∀ c ∈ ds, IsDigit 10 c) ∧
      numeral 10 ds = v.toNat

/-- The numbers of an engine: a list for the parameters, if the engine has any, and a list for the status. -/
def fields : (E : Engine) → E.State → List (List Field)
  | .lcg64, e | .lcg64Shift, e =>
    let e : LCG64 := e
    [[.unsigned 64 e.P.a, .unsigned 64 e.P.b], [.unsigned 64 e.r]]
  | .lcg64CountShift, e =>
    let e : LCG64Count := e
    [[.unsigned 64 e.P.a, .unsigned 64 e.P.b, .unsigned 64 e.P.inc], [.unsigned 64 e.r, .unsigned 64 e.count]]
  | .count128LcgShift, e =>
    let e : Count128 := e
    [[.uint128 e.P.increment, .unsigned 64 e.P.a, .unsigned 64 e.P.b], [.uint128 e.r]]
  | .minstd, e =>
    let e : Minstd := e
    [[.unsigned 32 e.r]]
  | .xoshiro256plus, e =>
    let e : Xoshiro := e
    [[.unsigned 64 e.r0, .unsigned 64 e.r1, .unsigned 64 e.r2, .unsigned 64 e.r3]]
  | .mrg k, e | .yarn k, e =>
    let e : MRG k.order := e
    [List.ofFn fun i => .int (e.a i), List.ofFn fun i => .int (e.r i)]
  | .lagfib P w, e =>
    let e : LagFib P w := e
    [.unsigned 32 e.index :: List.ofFn fun i => .unsigned w (e.r i)]
  | .mt19937, e =>
    let e : MT MT.mt19937 := e
    [[], .int e.mti :: List.ofFn fun i => .unsigned 32 (e.mt i)]
  | .mt19937_64, e =>
    let e : MT MT.mt19937_64 := e
    [[], .int e.mti :: List.ofFn fun i => .unsigned 64 (e.mt i)]

/-- `(t t ... t)` -/
def tuple (ts : List (List Char)) : List Char := ['('] ++ [' '].intercalate ts ++ [')']
/-- `[name tuple ... tuple]` -/
def record (name : List Char) (ts : List (List (List Char))) : List Char :=
  ['['] ++ [' '].intercalate (name :: ts.map tuple) ++ [']']

/-- `t` is a text for the engine `e`. -/
def Text (E : Engine) (e : E.State) (t : List Char) : Prop :=
  ∃ ts, List.Forall₂ (List.Forall₂ Field.Text) (fields E e) ts ∧ t = record E.name ts

/-- The integers in the engine fit their C++ types (`int`); true of every object in a program. -/
def Fits (E : Engine) (e : E.State) : Prop :=
  ∀ fs ∈ fields E e, ∀ f ∈ fs, ∀ v, f = .int v → -2 ^ 31 ≤ v ∧ v < 2 ^ 31

end Trng.StreamSpec

