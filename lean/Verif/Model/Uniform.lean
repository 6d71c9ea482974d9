import Verif.Model.Float

/-! Model of trng/uniformxx.hpp and of the distributions that use it directly. -/
namespace Trng.Uniform
open FP

/-- An engine as uniformxx.hpp sees it: `prng_t::operator()`, `prng_t::min()`, `prng_t::max()`.
Results are non-negative (uniformxx.hpp:132). -/
structure Gen (σ : Type) where
  call : σ → Nat × σ
  min : Nat
  max : Nat

/-- uniformxx.hpp:47-55 `Bits`; the first argument bounds the template recursion (64 halvings bring
every unsigned long long to 0). -/
def bitsAux : Nat → Nat → Nat → Nat
  | 0, _, count => count
  | n + 1, top, count => if top = 0 then count else bitsAux n (top / 2) (count + 1)

@[inherit_doc bitsAux] def bits (top : Nat) : Nat := bitsAux 64 top 0

/-- uniformxx.hpp:59-67 `Holes`. -/
def holesAux : Nat → Nat → Nat → Nat
  | 0, _, count => count
  | n + 1, top, count => if top = 0 then count else holesAux n (top / 2) (count + (1 - top % 2))

@[inherit_doc holesAux] def holes (top : Nat) : Nat := holesAux 64 top 0

/-- The template arguments of `u01xx_traits` (uniformxx.hpp:74): floating-point type, requested bits, and
`prng_t::max() - prng_t::min()` (line 80, `domain_max0`). -/
structure Traits where
  F : Fmt
  req : Nat
  max0 : Nat

namespace Traits
variable (T : Traits)

/-- uniformxx.hpp:81 -/
def domainBits : Nat := bits T.max0
/-- uniformxx.hpp:82-83 -/
def domainFullBits : Nat := T.domainBits - (if holes T.max0 > 0 then 1 else 0)
/-- uniformxx.hpp:84-85; `unsigned int` has 32 digits. -/
def intOk : Bool := T.domainBits < 32
/-- uniformxx.hpp:86-87; `unsigned long` has 64 digits (LP64). -/
def longOk : Bool := T.domainBits < 64
/-- uniformxx.hpp:88-90 -/
def longLongOk : Bool := T.domainBits < 64
/-- uniformxx.hpp:92-95 -/
def nbits : Nat :=
  let bits0 := if T.req < T.F.p then T.req else T.F.p
  if bits0 < 1 then 1 else bits0
/-- uniformxx.hpp:96-97 -/
def callsNeeded : Nat := T.nbits / T.domainFullBits + (if T.nbits % T.domainFullBits ≠ 0 then 1 else 0)
/-- uniformxx.hpp:102-103 -/
def useLLOfShifted : Bool := !T.longLongOk && T.max0 >>> 1 == 2 ^ 63 - 1 && T.nbits < T.domainBits
/-- uniformxx.hpp:104-105 -/
def domainMax : Nat := if T.useLLOfShifted then T.max0 >>> 1 else T.max0

/-- `static_cast` of an unsigned value to a signed integer type of `w` bits (wraps). -/
def toSigned (w : Nat) (x : Nat) : ℤ := (x : ℤ).bmod (2 ^ w)

/-- uniformxx.hpp:108-120, the value added for an engine result `x = r() - min()`. -/
def addin (x : Nat) : ℚ :=
  if T.intOk then T.F.rnd (toSigned 32 x)
  else if T.longOk then T.F.rnd (toSigned 64 x)
  else if T.longLongOk then T.F.rnd (toSigned 64 x)
  else if T.useLLOfShifted then T.F.rnd (toSigned 64 (x >>> 1))
  else T.F.rnd x

/-- uniformxx.hpp:123, 138: `scale_per_step` -/
def scalePerStep : ℚ := T.F.rnd (T.F.rnd T.domainMax + 1)

/-- uniformxx.hpp:122-129; the loop runs `n` times. -/
def variateMaxLoop : Nat → ℚ
  | 0 => T.F.rnd T.domainMax
  | n + 1 => T.F.rnd (T.F.rnd (variateMaxLoop n * T.scalePerStep) + T.F.rnd T.domainMax)

@[inherit_doc variateMaxLoop] def variateMax : ℚ := T.variateMaxLoop (T.callsNeeded - 1)

/-- uniformxx.hpp:131-143; the loop runs `n` times. Returns the deviate and the engine afterwards. -/
def variateLoop {σ : Type} (G : Gen σ) (s : σ) : Nat → ℚ × σ
  | 0 => (T.addin ((G.call s).1 - G.min), (G.call s).2)
  | n + 1 =>
    let r := variateLoop G s n
    (T.F.rnd (T.F.rnd (r.1 * T.scalePerStep) + T.addin ((G.call r.2).1 - G.min)), (G.call r.2).2)

@[inherit_doc variateLoop] def variate {σ : Type} (G : Gen σ) (s : σ) : ℚ × σ :=
  T.variateLoop G s (T.callsNeeded - 1)

/-- `numeric_limits<ret_t>::epsilon()` -/
def nativeEps : ℚ := 2 ^ (1 - T.F.p : ℤ)
/-- uniformxx.hpp:145-149 -/
def eps : ℚ :=
  let domainEps := T.F.rnd (1 / T.F.rnd T.domainMax)
  if T.nativeEps ≥ domainEps ∨ T.req ≠ 1 then T.nativeEps else domainEps
/-- uniformxx.hpp:151 -/
def ccNorm : ℚ := T.F.rnd (1 / T.variateMax)
/-- uniformxx.hpp:153 -/
def coNorm : ℚ := T.F.rnd (T.ccNorm * T.F.rnd (1 - T.eps))
/-- uniformxx.hpp:155 -/
def ooNorm : ℚ := T.F.rnd (T.ccNorm * T.F.rnd (1 - T.F.rnd (2 * T.eps)))

variable {σ : Type} (G : Gen σ) (s : σ)

/-- uniformxx.hpp:159-162 -/
def cc : ℚ × σ :=
  let v := T.variate G s
  if T.F.rnd (T.variateMax * T.ccNorm) ≠ 1 then (T.F.rnd (v.1 / T.variateMax), v.2)
  else (T.F.rnd (v.1 * T.ccNorm), v.2)
/-- uniformxx.hpp:164 -/
def co : ℚ × σ := let v := T.variate G s; (T.F.rnd (v.1 * T.coNorm), v.2)
/-- uniformxx.hpp:166 -/
def oc : ℚ × σ := let u := T.co G s; (T.F.rnd (1 - u.1), u.2)
/-- uniformxx.hpp:168 -/
def oo : ℚ × σ := let v := T.variate G s; (T.F.rnd (T.F.rnd (v.1 * T.ooNorm) + T.eps), v.2)

end Traits

section
variable {σ : Type} (F : Fmt) (G : Gen σ) (s : σ)

/-- uniformxx.hpp:171-174 `utility::generate_canonical<ReturnType, bits>` -/
def canonicalBits (bits : Nat) : ℚ × σ := Traits.co ⟨F, bits, G.max - G.min⟩ G s
/-- uniformxx.hpp:176-179 -/
def uniformcc : ℚ × σ := Traits.cc ⟨F, 1, G.max - G.min⟩ G s
/-- uniformxx.hpp:181-184 -/
def uniformco : ℚ × σ := Traits.co ⟨F, 1, G.max - G.min⟩ G s
/-- uniformxx.hpp:186-189 -/
def uniformoc : ℚ × σ := Traits.oc ⟨F, 1, G.max - G.min⟩ G s
/-- uniformxx.hpp:191-194 -/
def uniformoo : ℚ × σ := Traits.oo ⟨F, 1, G.max - G.min⟩ G s
/-- generate_canonical.hpp:48-54, 69-72 for floating-point types. (The integer overload, lines 56-65,
converts the functions `R::max`, `R::min` to `double` and does not compile with any engine.) -/
def generateCanonical : ℚ × σ := uniformoo F G s

end

/-- `operator()(long x)` of every engine, e.g. lcg64.hpp:260-262: `static_cast<long>(uniformco<double>(*this) * x)`.
`D` is the type `double`, `long` has 64 bits. -/
def boundedInt {σ : Type} (D : Fmt) (G : Gen σ) (s : σ) (x : ℤ) : Option ℤ × σ :=
  let u := uniformco D G s
  (toInteger (-2 ^ 63) (2 ^ 63 - 1) (D.rnd (u.1 * D.rnd x)), u.2)

/-- `int` arithmetic: undefined outside the range. -/
def int32 (x : ℤ) : Option ℤ := if -2 ^ 31 ≤ x ∧ x ≤ 2 ^ 31 - 1 then some x else none

/-- uniform_int_dist.hpp:50-77 `uniform_int_dist::param_type` -/
structure IntParam where
  a : ℤ := 0
  b : ℤ := 1
  d : ℤ := 1
  deriving DecidableEq

namespace IntParam
/-- uniform_int_dist.hpp:76 -/
def mk' (a b : ℤ) : Option IntParam := (int32 (b - a)).map fun d => ⟨a, b, d⟩
/-- uniform_int_dist.hpp:60-63 -/
def setA (P : IntParam) (a : ℤ) : Option IntParam := (int32 (P.b - a)).map fun d => ⟨a, P.b, d⟩
/-- uniform_int_dist.hpp:67-70 -/
def setB (P : IntParam) (b : ℤ) : Option IntParam := (int32 (b - P.a)).map fun d => ⟨P.a, b, d⟩

/-- uniform_int_dist.hpp:94-96 -/
def sample {σ : Type} (P : IntParam) (D : Fmt) (G : Gen σ) (s : σ) : Option ℤ × σ :=
  let u := uniformco D G s
  ((toInteger (-2 ^ 31) (2 ^ 31 - 1) (D.rnd (D.rnd P.d * u.1))).bind fun k => int32 (k + P.a), u.2)
/-- uniform_int_dist.hpp:104, 106 -/
def minValue (P : IntParam) : ℤ := P.a
@[inherit_doc minValue] def maxValue (P : IntParam) : Option ℤ := int32 (P.b - 1)
/-- uniform_int_dist.hpp:121-125; `rnd` is that of `double`. -/
def pdf (P : IntParam) (D : Fmt) (x : ℤ) : ℚ := if x < P.a ∨ x ≥ P.b then 0 else D.rnd (1 / D.rnd P.d)
/-- uniform_int_dist.hpp:128-134 -/
def cdf (P : IntParam) (D : Fmt) (x : ℤ) : Option ℚ :=
  if x < P.a then some 0 else if x ≥ P.b then some 1
  else (int32 (x - P.a)).bind fun y => (int32 (y + 1)).map fun z => D.rnd (D.rnd z / D.rnd P.d)
end IntParam

/-- bernoulli_dist.hpp:78-104 `bernoulli_dist<T>::param_type` -/
structure BernoulliParam (τ : Type) where
  p : ℚ
  head : τ
  tail : τ

namespace BernoulliParam
variable {τ σ : Type} (P : BernoulliParam τ)

/-- bernoulli_dist.hpp:159-161 -/
def sample (D : Fmt) (G : Gen σ) (s : σ) : τ × σ :=
  let u := uniformco D G s
  (if u.1 < P.p then P.head else P.tail, u.2)
/-- bernoulli_dist.hpp:195-201 -/
def pdf [DecidableEq τ] (D : Fmt) (x : τ) : ℚ :=
  if x = P.head then P.p else if x = P.tail then D.rnd (1 - P.p) else 0
/-- bernoulli_dist.hpp:204-220 -/
def cdf [LT τ] [DecidableLT τ] (D : Fmt) (x : τ) : ℚ :=
  if P.head < P.tail then
    if x < P.head then 0 else if x < P.tail then P.p else 1
  else
    if x < P.tail then 0 else if x < P.head then D.rnd (1 - P.p) else 1
end BernoulliParam

/-- uniform_dist.hpp:51-79 `uniform_dist<float_t>::param_type`; `F` is `float_t`. -/
structure RealParam where
  a : ℚ := 0
  b : ℚ := 1
  d : ℚ := 1
  deriving DecidableEq

namespace RealParam
/-- uniform_dist.hpp:78 -/
def mk' (F : Fmt) (a b : ℚ) : RealParam := ⟨a, b, F.rnd (b - a)⟩
/-- uniform_dist.hpp:62-65 -/
def setA (F : Fmt) (P : RealParam) (a : ℚ) : RealParam := ⟨a, P.b, F.rnd (P.b - a)⟩
/-- uniform_dist.hpp:69-72 -/
def setB (F : Fmt) (P : RealParam) (b : ℚ) : RealParam := ⟨P.a, b, F.rnd (b - P.a)⟩
/-- uniform_dist.hpp:133-135 -/
def sample {σ : Type} (P : RealParam) (F : Fmt) (G : Gen σ) (s : σ) : ℚ × σ :=
  let u := uniformco F G s
  (F.rnd (F.rnd (P.d * u.1) + P.a), u.2)
end RealParam

end Trng.Uniform
