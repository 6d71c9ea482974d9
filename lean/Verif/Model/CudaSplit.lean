import Verif.Model.LCG64
import Verif.Model.LCG64CountShift
import Verif.Model.Count128

/-!
`split` of the linear congruential engines and of count128_lcg_shift when compiled with TRNG_CUDA: the check of the arguments is left
out by the preprocessor.  The other functions of these engines do not depend on TRNG_CUDA.  (`split` of the mrg and yarn engines:
`Model/MRGWritten`.)
-/
namespace Trng

/-- lcg64.hpp:318-330 and lcg64_shift.hpp:324-336 `split`, with TRNG_CUDA. -/
def LCG64.splitCuda (e : LCG64) (s n : BitVec 32) : Outcome LCG64 :=
  if s > 1 then
    Outcome.ofOption do
      let e ← e.jump (n.setWidth 64 + 1)
      let b := e.P.b * LCG64.f (s.setWidth 64) e.P.a
      let a := LCG64.pow e.P.a (s.setWidth 64)
      LCG64.backward { e with P := ⟨a, b⟩ }
  else .ok e

/-- lcg64_count_shift.hpp:365-381 `split`, with TRNG_CUDA. -/
def LCG64Count.splitCuda (e : LCG64Count) (s n : BitVec 32) : Outcome LCG64Count :=
  if s > 1 then
    Outcome.ofOption do
      let e ← e.jump (n.setWidth 64 + 1)
      let b := e.P.b * LCG64.f (s.setWidth 64) e.P.a
      let a := LCG64.pow e.P.a (s.setWidth 64)
      let inc := LCG64Count.multModulo (s.setWidth 64) e.P.inc
      LCG64Count.backward { e with P := ⟨a, b, inc⟩ }
  else .ok e

/-- count128_lcg_shift.hpp:263-275 `split`, with TRNG_CUDA. -/
def Count128.splitCuda (e : Count128) (s n : BitVec 32) : Outcome Count128 :=
  if s > 1 then
    let r := e.r + Count128.words 0 (n.setWidth 64) * e.P.increment
    let r := r + e.P.increment
    let increment := e.P.increment * Count128.words 0 (s.setWidth 64)
    let r := r - increment
    .ok ⟨⟨increment, e.P.a, e.P.b⟩, r⟩
  else .ok e

end Trng
