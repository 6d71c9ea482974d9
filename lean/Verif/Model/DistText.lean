import Verif.Model.Stream
import Verif.Model.Float

/-! Model of the text output and input of the distributions and their `param_type`s.  Streams as in Verif/Model/Stream.lean;
in addition the precision of an output stream is part of its state, because the operators set it and do not restore it.
Conversions between floating-point numbers and text are modelled as the C++ standard describes them, with exact conversion of
the decimal expansion and rounding to nearest, ties to even (glibc).  Parameters of a distribution are the arguments of its
constructor; tables computed from them (`calc_probabilities`, `update_Phi`, ...) are functions of the parameters and are
left out, and so is what these functions do for parameters they are not made for. -/
namespace Trng.DistText
open Trng.Stream Trng.Stream.In

/-- The floating-point types, as on x86-64. -/
inductive FloatType where
  | float | double | longDouble
deriving DecidableEq

namespace FloatType
/-- `std::numeric_limits<T>::digits`. -/
def p : FloatType → Nat
  | float => 24
  | double => 53
  | longDouble => 64
/-- All finite values are multiples of `2 ^ emin`. -/
def emin : FloatType → Int
  | float => -149
  | double => -1074
  | longDouble => -16445
/-- All finite values are below `2 ^ emax`. -/
def emax : FloatType → Int
  | float => 128
  | double => 1024
  | longDouble => 16384
/-- `std::numeric_limits<T>::digits10`. -/
def digits10 : FloatType → Nat
  | float => 6
  | double => 15
  | longDouble => 18

/-- Rounding of a non-negative number to a value of the type (to nearest, ties to even), as if there was no largest value. -/
def round (F : FloatType) (a : ℚ) : ℚ :=
  let e := max (Int.log 2 a + 1 - F.p) F.emin
  FP.rneInt (a / 2 ^ e) * 2 ^ e
end FloatType

/-- A floating-point value: sign and absolute value. -/
inductive FVal where
  | fin (neg : Bool) (a : ℚ)
  | inf (neg : Bool)
  | nan (neg : Bool)
deriving DecidableEq

/-- `k` decimal digits of `m`. -/
def digitsPad : (k m : Nat) → List Char
  | 0, _ => []
  | k + 1, m => digitsPad k (m / 10) ++ [Char.ofNat ('0'.toNat + m % 10)]

/-- `out << std::fixed << a` with precision `k` for `a ≥ 0`. -/
def fixed (k : Nat) (a : ℚ) : List Char :=
  let n := (FP.rneInt (a * 10 ^ k)).toNat
  decimal (n / 10 ^ k) ++ if k = 0 then [] else '.' :: digitsPad k (n % 10 ^ k)

/-- `out << std::fixed << x` with precision `k`. -/
def outF (k : Nat) : FVal → List Char
  | .fin neg a => (if neg then ['-'] else []) ++ fixed k a
  | .inf neg => (if neg then ['-'] else []) ++ ['i', 'n', 'f']
  | .nan neg => (if neg then ['-'] else []) ++ ['n', 'a', 'n']

/-- The characters of a floating-point number that `num_get::do_get` collects (stages 1 and 2). -/
structure Scanned where
  sign : Option Char
  /-- digits before the point -/
  ip : List Char
  /-- digits after the point -/
  fp : List Char
  /-- sign and digits of the exponent, if there is an `e` -/
  ex : Option (Option Char × List Char)
  rest : List Char

/-- The digits after the decimal point, if there is one, and the text after them. -/
def takeFraction : List Char → List Char × List Char
  | '.' :: r => (r.takeWhile isDigit, r.dropWhile isDigit)
  | r => ([], r)

/-- The exponent, if there is one, and the text after it. -/
def takeExponent : List Char → Option (Option Char × List Char) × List Char
  | c :: r =>
    if c = 'e' ∨ c = 'E' then
      let q := takeSign r
      (some (q.1, q.2.takeWhile isDigit), q.2.dropWhile isDigit)
    else (none, c :: r)
  | [] => (none, [])

/-- `in >> x` for a floating-point number without skipping of white space, up to the conversion.  An exponent is possible only
after at least one digit. -/
def scanF (l : List Char) : Scanned :=
  let r := takeSign l
  let f := takeFraction (r.2.dropWhile isDigit)
  let ip := r.2.takeWhile isDigit
  let x := if ip = [] ∧ f.1 = [] then (none, f.2) else takeExponent f.2
  ⟨r.1, ip, f.1, x.1, x.2⟩

/-- The number that an exponent stands for. -/
def exponent : Option (Option Char × List Char) → Int
  | none => 0
  | some (s, ds) => if s = some '-' then -(value ds : Int) else value ds

/-- The absolute value of the decimal number. -/
def Scanned.abs (r : Scanned) : ℚ := (value (r.ip ++ r.fp) : ℚ) / 10 ^ r.fp.length * 10 ^ exponent r.ex

/-- `in >> x` for a floating-point number.  Without digits, with an `e` without digits and if the number is too large
`failbit` is set (the value stored then is never used). -/
def readF (F : FloatType) (s : In) : FVal × In :=
  if s.good then
    let r := scanF s.rest
    let s := { s with rest := r.rest, eof := r.rest.isEmpty }
    if (r.ip = [] ∧ r.fp = []) ∨ (r.ex.map Prod.snd = some []) then (.fin false 0, s.setFail)
    else if 2 ^ F.emax ≤ F.round r.abs then (.inf (r.sign = some '-'), s.setFail)
    else (.fin (r.sign = some '-') (F.round r.abs), s)
  else (.fin false 0, s.setFail)

/-! ### Parameters that are a fixed number of numbers -/

/-- The types of parameters. -/
inductive Ty where
  | int | unsigned (w : Nat) | real (F : FloatType)
deriving DecidableEq

/-- The values of a type. -/
def Ty.Val : Ty → Type
  | int => Int
  | unsigned w => BitVec w
  | real _ => FVal

/-- `out << x` with precision `k`. -/
def Ty.out (k : Nat) : (T : Ty) → T.Val → List Char
  | int, v => decimalInt v
  | unsigned _, v => outU v
  | real _, v => outF k v

/-- `in >> x`. -/
def Ty.rd : (T : Ty) → In → T.Val × In
  | int, s => readInt s
  | unsigned w, s => readU w s
  | real F, s => readF F s

/-- A value of each of the types. -/
def Tuple : List Ty → Type
  | [] => Unit
  | T :: ts => T.Val × Tuple ts

/-- `x << ' ' << y << ' ' << z`. -/
def outTuple (k : Nat) : (ts : List Ty) → Tuple ts → List Char
  | [], _ => []
  | T :: ts, x => T.out k x.1 ++ (if ts = [] then [] else ' ' :: outTuple k ts x.2)

/-- `>> x >> delim(' ') >> y >> delim(' ') >> z`. -/
def readTuple : (ts : List Ty) → In → Tuple ts × In
  | [], s => ((), s)
  | T :: ts, s =>
    let x := T.rd s
    let r := readTuple ts (if ts = [] then x.2 else x.2.delimC ' ')
    ((x.1, r.1), r.2)

/-! ### The distributions -/

/-- The distributions.  `F` is the template parameter `float_t`, `T` that of `bernoulli_dist`; chi_square_dist, student_t_dist,
snedecor_f_dist and uniform01_dist do not use theirs in input and output. -/
inductive Dist where
  | bernoulli (T : Ty) | beta (F : FloatType) | binomial | cauchy (F : FloatType) | chiSquare | correlatedNormal (F : FloatType)
  | discrete | exponential (F : FloatType) | extremeValue (F : FloatType) | fastDiscrete | gamma (F : FloatType) | geometric
  | hypergeometric | logistic (F : FloatType) | lognormal (F : FloatType) | maxwell (F : FloatType) | negativeBinomial
  | normal (F : FloatType) | pareto (F : FloatType) | poisson | powerlaw (F : FloatType) | rayleigh (F : FloatType) | snedecorF
  | studentT | tent (F : FloatType) | truncatedNormal (F : FloatType) | twosidedExponential (F : FloatType) | uniform01
  | uniform (F : FloatType) | uniformInt | weibull (F : FloatType) | zeroTruncatedPoisson
deriving DecidableEq

namespace Dist

/-- The name written: bernoulli_dist.hpp:243, beta_dist.hpp:222, binomial_dist.hpp:197, cauchy_dist.hpp:212,
chi_square_dist.hpp:204, correlated_normal_dist.hpp:204, discrete_dist.hpp:242, exponential_dist.hpp:185,
extreme_value_dist.hpp:203, fast_discrete_dist.hpp:222, gamma_dist.hpp:214, geometric_dist.hpp:183, hypergeometric_dist.hpp:203,
logistic_dist.hpp:208, lognormal_dist.hpp:209, maxwell_dist.hpp:201, negative_binomial_dist.hpp:209, normal_dist.hpp:194,
pareto_dist.hpp:203, poisson_dist.hpp:176, powerlaw_dist.hpp:205, rayleigh_dist.hpp:192, snedecor_f_dist.hpp:221,
student_t_dist.hpp:204, tent_dist.hpp:211, truncated_normal_dist.hpp:245, twosided_exponential_dist.hpp:193,
uniform01_dist.hpp:170, uniform_dist.hpp:210, uniform_int_dist.hpp:193, weibull_dist.hpp:212,
zero_truncated_poisson_dist.hpp:188. -/
def outName : Dist → String
  | bernoulli _ => "[bernoulli "
  | beta _ => "[beta "
  | binomial => "[binomial "
  | cauchy _ => "[cauchy "
  | chiSquare => "[chi_square "
  | correlatedNormal _ => "[correlated_normal "
  | discrete => "[discrete "
  | exponential _ => "[exponential "
  | extremeValue _ => "[extreme_value "
  | fastDiscrete => "[fast_discrete "
  | gamma _ => "[gamma "
  | geometric => "[geometric "
  | hypergeometric => "[hypergeometric "
  | logistic _ => "[logistic "
  | lognormal _ => "[lognormal "
  | maxwell _ => "[maxwell "
  | negativeBinomial => "[negative_binomial "
  | normal _ => "[normal "
  | pareto _ => "[pareto "
  | poisson => "[poisson "
  | powerlaw _ => "[powerlaw "
  | rayleigh _ => "[rayleigh "
  | snedecorF => "[snedecor_f "
  | studentT => "[student_t "
  | tent _ => "[tent "
  | truncatedNormal _ => "[truncated_normal "
  | twosidedExponential _ => "[exponential "
  | uniform01 => "[uniform01 "
  | uniform _ => "[uniform "
  | uniformInt => "[uniform_int "
  | weibull _ => "[weibull "
  | zeroTruncatedPoisson => "[zero-truncated poisson "

/-- The name expected by the input operator: bernoulli_dist.hpp:254, beta_dist.hpp:233, binomial_dist.hpp:208,
cauchy_dist.hpp:223, chi_square_dist.hpp:215, correlated_normal_dist.hpp:215, discrete_dist.hpp:253, exponential_dist.hpp:196,
extreme_value_dist.hpp:214, fast_discrete_dist.hpp:233, gamma_dist.hpp:225, geometric_dist.hpp:194, hypergeometric_dist.hpp:214,
logistic_dist.hpp:219, lognormal_dist.hpp:220, maxwell_dist.hpp:212, negative_binomial_dist.hpp:220, normal_dist.hpp:205,
pareto_dist.hpp:214, poisson_dist.hpp:187, powerlaw_dist.hpp:216, rayleigh_dist.hpp:203, snedecor_f_dist.hpp:232,
student_t_dist.hpp:215, tent_dist.hpp:222, truncated_normal_dist.hpp:256, twosided_exponential_dist.hpp:204,
uniform01_dist.hpp:181, uniform_dist.hpp:221, uniform_int_dist.hpp:204, weibull_dist.hpp:223,
zero_truncated_poisson_dist.hpp:199. -/
def inName : Dist → String
  | bernoulli _ => "[bernoulli "
  | beta _ => "[beta "
  | binomial => "[binomial "
  | cauchy _ => "[cauchy "
  | chiSquare => "[chi_square "
  | correlatedNormal _ => "[correlated_normal "
  | discrete => "[discrete "
  | exponential _ => "[exponential "
  | extremeValue _ => "[extreme_value "
  | fastDiscrete => "[fast_discrete "
  | gamma _ => "[gamma "
  | geometric => "[geometric "
  | hypergeometric => "[hypergeometric "
  | logistic _ => "[logistic "
  | lognormal _ => "[lognormal "
  | maxwell _ => "[maxwell "
  | negativeBinomial => "[negative_binomial "
  | normal _ => "[normal "
  | pareto _ => "[pareto "
  | poisson => "[poisson "
  | powerlaw _ => "[powerlaw "
  | rayleigh _ => "[rayleigh "
  | snedecorF => "[snedecor_f "
  | studentT => "[student_t "
  | tent _ => "[tent "
  | truncatedNormal _ => "[truncated_normal "
  | twosidedExponential _ => "[twosided exponential "
  | uniform01 => "[uniform01 "
  | uniform _ => "[uniform "
  | uniformInt => "[uniform_int "
  | weibull _ => "[weibull "
  | zeroTruncatedPoisson => "[zero-truncated poisson "

/-- How the parameters are written and read. -/
inductive _root_.Trng.DistText.Layout where
  /-- a fixed number of numbers -/
  | tuple (ts : List Ty)
  /-- weights; `moved` for `fast_discrete_dist` -/
  | weights (moved : Bool)
  /-- a matrix -/
  | matrix (F : FloatType)

/-- The parameters in the order in which `param_type` is constructed, written and read.  Output and input of the parameters:
bernoulli_dist.hpp:117-140 (p, head, tail), beta_dist.hpp:100-123 (alpha, beta), binomial_dist.hpp:156-179 (p, n),
cauchy_dist.hpp:88-110 (theta, eta), chi_square_dist.hpp:85-106 (nu), correlated_normal_dist.hpp:115-149,
discrete_dist.hpp:188-224, exponential_dist.hpp:83-105 (mu), extreme_value_dist.hpp:87-109 (theta, eta),
fast_discrete_dist.hpp:168-204, gamma_dist.hpp:89-112 (kappa, theta), geometric_dist.hpp:141-162 (p),
hypergeometric_dist.hpp:162-185 (n, m, d), logistic_dist.hpp:87-109 (theta, eta), lognormal_dist.hpp:89-111 (mu, sigma),
maxwell_dist.hpp:83-105 (theta), negative_binomial_dist.hpp:168-191 (p, r), normal_dist.hpp:90-112 (mu, sigma),
pareto_dist.hpp:88-111 (gamma, theta), poisson_dist.hpp:136-158 (mu), powerlaw_dist.hpp:88-111 (gamma, theta),
rayleigh_dist.hpp:83-105 (nu), snedecor_f_dist.hpp:88-109 (n, m), student_t_dist.hpp:84-105 (nu), tent_dist.hpp:87-109 (m, d),
truncated_normal_dist.hpp:125-148 (mu, sigma, a, b), twosided_exponential_dist.hpp:84-106 (mu), uniform01_dist.hpp:69-87 (no
parameters), uniform_dist.hpp:94-116 (a, b), uniform_int_dist.hpp:152-173 (a, b), weibull_dist.hpp:87-110 (theta, beta),
zero_truncated_poisson_dist.hpp:145-168 (mu). -/
def layout : Dist → Layout
  | bernoulli T => .tuple [.real .double, T, T]
  | beta F | cauchy F | extremeValue F | gamma F | logistic F | lognormal F | normal F | pareto F | powerlaw F | tent F
  | uniform F | weibull F => .tuple [.real F, .real F]
  | binomial | negativeBinomial => .tuple [.real .double, .int]
  | exponential F | maxwell F | rayleigh F | twosidedExponential F => .tuple [.real F]
  | geometric | poisson | zeroTruncatedPoisson => .tuple [.real .double]
  | chiSquare | studentT => .tuple [.int]
  | snedecorF | uniformInt => .tuple [.int, .int]
  | hypergeometric => .tuple [.int, .int, .int]
  | truncatedNormal F => .tuple [.real F, .real F, .real F, .real F]
  | uniform01 => .tuple []
  | discrete => .weights false
  | fastDiscrete => .weights true
  | correlatedNormal F => .matrix F

/-- The precision set by `std::setprecision` before the first floating-point number, if it is set (lines as for `layout`). -/
def precision : Dist → Option Nat
  | beta F | cauchy F | extremeValue F | gamma F | logistic F | lognormal F | normal F | pareto F | powerlaw F | tent F
  | uniform F | weibull F | exponential F | maxwell F | rayleigh F | twosidedExponential F | truncatedNormal F
  | correlatedNormal F => some (F.digits10 + 1)
  | binomial | negativeBinomial | geometric | poisson | zeroTruncatedPoisson | hypergeometric | discrete | fastDiscrete =>
    some (FloatType.double.digits10 + 1)
  | bernoulli _ | chiSquare | studentT | snedecorF | uniformInt | uniform01 => none

end Dist

/-- The parameters of a distribution.  Weights: `N_` and the last `N_` elements of `P_` (discrete_dist.hpp:58-60; the elements
before them are sums of them), `N` and `P` (fast_discrete_dist.hpp:63-66).  Matrix: `d_` and the elements of `H_`
(correlated_normal_dist.hpp:60-61), their number is `d_ * d_`. -/
def Layout.State : Layout → Type
  | tuple ts => Tuple ts
  | weights _ => Nat × List FVal
  | matrix _ => Nat × List FVal

/-- discrete_dist.hpp:62-77, fast_discrete_dist.hpp:68-71: the parameters made from weights.  In `fast_discrete_dist` `N` is the
size of the vector after it was moved from. -/
def makeWeights (moved : Bool) (l : List FVal) : Nat × List FVal := if moved then (0, l) else (l.length, l)

/-- Output of the parameters with precision `k` for floating-point numbers (lines as for `Dist.layout`). -/
def Layout.out (k : Nat) : (L : Layout) → L.State → List Char
  | tuple ts, P => ['('] ++ outTuple k ts P ++ [')']
  | weights _, P => ['('] ++ decimal P.1 ++ [' '] ++ outSep (outF k) P.2 ++ [')']
  | matrix _, P => ['('] ++ decimal P.1 ++ outPre (outF k) P.2 ++ [')']

/-- discrete_dist.hpp:213-218, fast_discrete_dist.hpp:193-198: the loop, with `m` numbers to be read.  `p` is the variable read
into, `none` as long as it is indeterminate; to use it then is undefined (`none`). -/
def weightLoop : (m : Nat) → (p : Option FVal) → In → Option (List FVal × In)
  | 0, _, s => some ([], s)
  | m + 1, p, s =>
    let x := readF .double s
    let p := if s.good then some x.1 else p
    let s := if 0 < m then x.2.delimC ' ' else x.2
    match p with
    | none => none
    | some v => (weightLoop m p s).map fun r => (v :: r.1, r.2)

/-- correlated_normal_dist.hpp:138-141: the loop, with `m` numbers to be read. -/
def matrixLoop (F : FloatType) : (m : Nat) → In → List FVal × In
  | 0, s => ([], s)
  | m + 1, s =>
    let x := readF F (s.delimC ' ')
    let r := matrixLoop F m x.2
    (x.1 :: r.1, r.2)

/-- Input of the parameters into a `param_type` object `P` (lines as for `Dist.layout`); `none`: the behaviour is undefined.
If the stream has failed before the number of weights, or the dimension, is read, that variable is indeterminate.  The product
`d * d` is of type `unsigned int`. -/
def Layout.read : (L : Layout) → L.State → In → Option (L.State × In)
  | tuple ts, P, s =>
    let x := readTuple ts (s.delimC '(')
    let s := x.2.delimC ')'
    if s.fail then some (P, s) else some (x.1, s)
  | weights moved, P, s =>
    let s := s.delimC '('
    if s.good = false then none
    else
      let n := s.readU 64
      match weightLoop n.1.toNat none (n.2.delimC ' ') with
      | none => none
      | some x =>
        let s := x.2.delimC ')'
        if s.fail then some (P, s) else some (makeWeights moved x.1, s)
  | matrix F, P, s =>
    let s := s.delimC '('
    if s.good = false then none
    else
      let d := s.readU 32
      let x := matrixLoop F (d.1 * d.1).toNat d.2
      let s := x.2.delimC ')'
      if s.fail then some (P, s) else some ((d.1.toNat, x.1), s)

/-- A default-constructed `param_type`: its members are never seen when reading a distribution, because it is assigned to only
if it was read; any value will do. -/
def Tuple.default : (ts : List Ty) → Tuple ts
  | [] => ()
  | .int :: ts => ((0 : Int), Tuple.default ts)
  | .unsigned w :: ts => (0#w, Tuple.default ts)
  | .real _ :: ts => (FVal.fin false 0, Tuple.default ts)

@[inherit_doc Tuple.default] def Layout.default : (L : Layout) → L.State
  | tuple ts => Tuple.default ts
  | weights _ => (0, [])
  | matrix _ => (0, [])

/-- Whether floating-point numbers are written: with no weights `std::setprecision` is not reached (discrete_dist.hpp:194-198,
fast_discrete_dist.hpp:174-178). -/
def Layout.sets : (L : Layout) → L.State → Bool
  | weights _, P => !P.2.isEmpty
  | _, _ => true

namespace Dist

/-- The parameters of a distribution. -/
abbrev State (d : Dist) : Type := d.layout.State

/-- `out << g` (lines as for `outName`), for a stream with field width `width`, fill character `fill` and precision `prec`: the
text and the precision after the output.  The width applies to the first string, which is padded on the right. -/
def print (d : Dist) (width : Nat) (fill : Char) (prec : Nat) (P : d.State) : List Char × Nat :=
  let k := d.precision.getD prec
  let open_ := d.outName.toList
  (open_ ++ List.replicate (width - open_.length) fill ++ d.layout.out k P ++ [']'],
    if d.layout.sets P then k else prec)

/-- `in >> g` (lines as for `inName`) for a distribution with parameters `R`; `none`: the behaviour is undefined. -/
def read (d : Dist) (R : d.State) (s : In) : Option (d.State × In) :=
  match d.layout.read d.layout.default (s.ignoreSpaces.delimStr d.inName.toList) with
  | none => none
  | some x =>
    let s := x.2.delimC ']'
    if s.fail then some (R, s) else some (x.1, s)

/-- `out << P` for a `param_type` (lines as for `layout`); the width applies to the parenthesis. -/
def printParam (d : Dist) (width : Nat) (fill : Char) (prec : Nat) (P : d.State) : List Char × Nat :=
  let k := d.precision.getD prec
  ((d.layout.out k P).take 1 ++ List.replicate (width - 1) fill ++ (d.layout.out k P).drop 1,
    if d.layout.sets P then k else prec)

/-- `in >> P` for a `param_type` (lines as for `layout`). -/
def readParam (d : Dist) (R : d.State) (s : In) : Option (d.State × In) := d.layout.read R s

end Dist
end Trng.DistText
