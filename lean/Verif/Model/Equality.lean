import Verif.Model.LCG64
import Verif.Model.LCG64CountShift
import Verif.Model.Minstd
import Verif.Model.MRG
/-
Model of `operator==` of the engines whose other members are modelled in LCG64, LCG64CountShift,
Minstd and MRG (the remaining engines have it in their own files).
-/
namespace Trng

/-- lcg64.cc:42-44, 51-53, 78 and lcg64_shift.cc:42-45, 53-55, 89-91. -/
def LCG64.eq (e e' : LCG64) : Bool := (e.P.a = e'.P.a && e.P.b = e'.P.b) && e.r = e'.r

/-- lcg64_count_shift.cc:42-45, 53-56, 99-101. -/
def LCG64Count.eq (e e' : LCG64Count) : Bool :=
  (e.P.a = e'.P.a && e.P.b = e'.P.b && e.P.inc = e'.P.inc) && (e.r = e'.r && e.count = e'.count)

/-- minstd.cc:42-44, 64. -/
def Minstd.eq (e e' : Minstd) : Bool := e.r = e'.r

/-- mrg3.cc:75 (and the other mrg and yarn engines), mrg_parameter.hpp:68-70, mrg_status.hpp:72-74. -/
def MRG.eq {n : Nat} (e e' : MRG n) : Bool :=
  ((List.finRange n).all fun i => e.a i = e'.a i) && ((List.finRange n).all fun i => e.r i = e'.r i)

end Trng
