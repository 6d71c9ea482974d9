import Verif.Model.DistText
import Verif.Spec.Stream

/-! What the text of a distribution is, and which floating-point numbers it can carry. -/
namespace Trng.DistTextSpec
open Trng.DistText Trng.Stream Trng.StreamSpec Trng.Spec

/-- `a` is the absolute value of a finite number of the type: an integer of `p` bits times a power of two. -/
def Value (F : FloatType) (a : ℚ) : Prop :=
  ∃ (m : ℕ) (e : ℤ), m < 2 ^ F.p ∧ F.emin ≤ e ∧ a = m * 2 ^ e ∧ a < 2 ^ F.emax

/-- `a` is what a literal with `k` digits after the decimal point stands for. -/
def Literal (F : FloatType) (k : ℕ) (a : ℚ) : Prop := ∃ j : ℕ, a = F.round (j / 10 ^ k)

/-- `t` is a text for the floating-point number `v`: a sign, digits with a decimal point, an exponent; sign, point and exponent
may be missing.  The number is rounded to the type, and must not be too large for it. -/
def RealText (F : FloatType) (v : FVal) (t : List Char) : Prop :=
  ∃ (sign ip fraction fp ex : List Char) (x : ℤ), t = sign ++ ip ++ fraction ++ ex ∧
    (sign = [] ∨ sign = ['+'] ∨ sign = ['-']) ∧
    (∀ c ∈ ip, IsDigit 10 c) ∧ (∀ c ∈ fp, IsDigit 10 c) ∧ ¬(ip = [] ∧ fp = []) ∧
    (fraction = [] ∧ fp = [] ∨ fraction = '.' :: fp) ∧
    (ex = [] ∧ x = 0 ∨ ∃ e xs ds, ex = e :: xs ++ ds ∧ (e = 'e' ∨ e = 'E') ∧ ds ≠ [] ∧ (∀ c ∈ ds, IsDigit 10 c) ∧
      ((xs = [] ∨ xs = ['+']) ∧ x = numeral 10 ds ∨ xs = ['-'] ∧ x = -numeral 10 ds)) ∧
    F.round (numeral 10 (ip ++ fp) / 10 ^ fp.length * 10 ^ x) < 2 ^ F.emax ∧
    v = .fin (sign = ['-']) (F.round (numeral 10 (ip ++ fp) / 10 ^ fp.length * 10 ^ x))

/-- `t` is a text for the value `v`. -/
def ValText : (T : Ty) → T.Val → List Char → Prop
  | .int, v, t => Field.Text (.int v) t
  | .unsigned w, v, t => Field.Text (.unsigned w v) t
  | .real F, v, t => RealText F v t

/-- The texts `ts` are texts for the values of the tuple. -/
def TupleTexts : (Ts : List Ty) → Tuple Ts → List (List Char) → Prop
  | [], _, ts => ts = []
  | T :: Ts, v, ts => ∃ t ts', ts = t :: ts' ∧ ValText T v.1 t ∧ TupleTexts Ts v.2 ts'

/-- `t` is a text for the parameters: `(t t ... t)`; for weights their number, followed by the weights (without weights, there
is still a blank); for a matrix the dimension, followed by the elements, whose number is the square of the dimension as far as
`unsigned int` can hold it. -/
def ParamText : (L : Layout) → L.State → List Char → Prop
  | .tuple Ts, P, t => ∃ ts, TupleTexts Ts P ts ∧ t = tuple ts
  | .weights moved, P, t => ∃ n ts, Field.Text (.unsigned 64 (BitVec.ofNat 64 P.2.length)) n ∧ P.2.length < 2 ^ 64 ∧
      List.Forall₂ (RealText .double) P.2 ts ∧ P.1 = (if moved then 0 else P.2.length) ∧
      t = ['('] ++ n ++ [' '] ++ [' '].intercalate ts ++ [')']
  | .matrix F, P, t => ∃ n ts, Field.Text (.unsigned 32 (BitVec.ofNat 32 P.1)) n ∧ P.1 < 2 ^ 32 ∧ P.2.length = P.1 * P.1 % 2 ^ 32 ∧
      List.Forall₂ (RealText F) P.2 ts ∧ t = tuple (n :: ts)

/-- `t` is a text for a distribution: `[name (t t ... t)]`, where `open_` is `[name `. -/
def Text (open_ : String) (L : Layout) (P : L.State) (t : List Char) : Prop :=
  ∃ t', ParamText L P t' ∧ t = open_.toList ++ t' ++ [']']

/-- The parameters of the distribution are a fixed number of numbers: all but discrete_dist, fast_discrete_dist and
correlated_normal_dist. -/
def Numbers (d : Dist) : Prop := ∃ Ts, d.layout = .tuple Ts

/-- All values of the tuple have a property, which may depend on the type. -/
def AllTuple (q : (T : Ty) → T.Val → Prop) : (Ts : List Ty) → Tuple Ts → Prop
  | [], _ => True
  | T :: Ts, v => q T v.1 ∧ AllTuple q Ts v.2
/-- All numbers among the parameters have a property (apart from the number of weights and the dimension). -/
def All (q : (T : Ty) → T.Val → Prop) : (L : Layout) → L.State → Prop
  | .tuple Ts, P => AllTuple q Ts P
  | .weights _, P => ∀ v ∈ P.2, q (.real .double) v
  | .matrix F, P => ∀ v ∈ P.2, q (.real F) v
/-- The values of the two tuples are pairwise related. -/
def RelTuple (r : (T : Ty) → T.Val → T.Val → Prop) : (Ts : List Ty) → Tuple Ts → Tuple Ts → Prop
  | [], _, _ => True
  | T :: Ts, v, w => r T v.1 w.1 ∧ RelTuple r Ts v.2 w.2
/-- The numbers among the parameters are pairwise related, and their number is the same. -/
def Rel (r : (T : Ty) → T.Val → T.Val → Prop) : (L : Layout) → L.State → L.State → Prop
  | .tuple Ts, P, Q => RelTuple r Ts P Q
  | .weights _, P, Q => P.1 = Q.1 ∧ List.Forall₂ (r (.real .double)) P.2 Q.2
  | .matrix F, P, Q => P.1 = Q.1 ∧ List.Forall₂ (r (.real F)) P.2 Q.2

/-- The value is one of the C++ type: integers are in range, floating-point numbers are finite numbers of the type. -/
def ValFits : (T : Ty) → T.Val → Prop
  | .int, v => -2 ^ 31 ≤ (show Int from v) ∧ (show Int from v) < 2 ^ 31
  | .unsigned _, _ => True
  | .real F, v => ∃ neg a, v = FVal.fin neg a ∧ Value F a

/-- The counts are right: `N` is the number of weights, the matrix is square (and the sizes are not astronomic). -/
def Sized : (L : Layout) → L.State → Prop
  | .tuple _, _ => True
  | .weights _, P => P.1 = P.2.length ∧ P.2.length < 2 ^ 64
  | .matrix _, P => P.2.length = P.1 * P.1 ∧ P.1 * P.1 < 2 ^ 32

/-- Parameters that an object in a program can have, without infinite values and NaN. -/
def Fits (L : Layout) (P : L.State) : Prop := Sized L P ∧ All ValFits L P

/-- If the value is a floating-point number, it is the value of a literal with `k` digits after the point. -/
def ValLiteral (k : ℕ) : (T : Ty) → T.Val → Prop
  | .real F, v => ∀ neg a, v = FVal.fin neg a → Literal F k a
  | _, _ => True

/-- Integers are equal, floating-point numbers have the same sign and differ by at most one unit of the `k`-th decimal. -/
def ValNear (k : ℕ) : (T : Ty) → T.Val → T.Val → Prop
  | .real _, v, w => ∃ neg a b, v = FVal.fin neg a ∧ w = FVal.fin neg b ∧ |b - a| ≤ 1 / 10 ^ k
  | _, v, w => v = w

/-! ### Parameters of some distributions -/

/-- An exponential_dist with parameter mu. -/
def exponential (F : FloatType) (mu : FVal) : (Dist.exponential F).State := (mu, ())
/-- A twosided_exponential_dist with parameter mu. -/
def twosidedExponential (F : FloatType) (mu : FVal) : (Dist.twosidedExponential F).State := (mu, ())
/-- A normal_dist. -/
def normal (F : FloatType) (mu sigma : FVal) : (Dist.normal F).State := (mu, sigma, ())
/-- A truncated_normal_dist. -/
def truncatedNormal (F : FloatType) (mu sigma a b : FVal) : (Dist.truncatedNormal F).State := (mu, sigma, a, b, ())
/-- A bernoulli_dist<int>. -/
def bernoulli (p : FVal) (head tail : Int) : (Dist.bernoulli .int).State := (p, head, tail, ())
/-- A uniform_int_dist. -/
def uniformInt (a b : Int) : Dist.uniformInt.State := (a, b, ())
/-- A snedecor_f_dist. -/
def snedecorF (n m : Int) : Dist.snedecorF.State := (n, m, ())
/-- A discrete_dist made from weights. -/
def discrete (l : List FVal) : Dist.discrete.State := makeWeights false l
/-- A fast_discrete_dist made from weights. -/
def fastDiscrete (l : List FVal) : Dist.fastDiscrete.State := makeWeights true l
/-- A correlated_normal_dist of dimension d with the elements of H. -/
def correlatedNormal (F : FloatType) (d : ℕ) (H : List FVal) : (Dist.correlatedNormal F).State := (d, H)

end Trng.DistTextSpec
