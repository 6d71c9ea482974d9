import Verif.Model.Special
import Verif.Model.Normal

/-! Model of the asymptotic expansion of the incomplete Gamma functions (trng/special_functions.hpp), on exact reals with the IEEE
special values. -/
namespace Trng.Special
open Classical XR

/-- special_functions.hpp:289-340: the array `d` of `GammaPQ_asympt_coefficients`, the literals as written.  In the code they are
rounded to `T`. -/
def asymptCoeffs : List ℚ :=
  [1,
   -3333333333333333333333333333333333333 / 10 ^ 37,
   8333333333333333333333333333333333333 / 10 ^ 38,
   -1481481481481481481481481481481481481 / 10 ^ 38,
   1157407407407407407407407407407407407 / 10 ^ 39,
   3527336860670194003527336860670194004 / 10 ^ 40,
   -1787551440329218106995884773662551440 / 10 ^ 40,
   3919263178522437781697040956300215559 / 10 ^ 41,
   -2185448510679992161473642955124436606 / 10 ^ 42,
   -1854062210715159960701798836229563253 / 10 ^ 42,
   8296711340953086005016242131664432272 / 10 ^ 43,
   -1766595273682607930436005424574240304 / 10 ^ 43,
   6707853543401498580369397100296135722 / 10 ^ 45,
   1026180978424030804257395732272529509 / 10 ^ 44,
   -4382036018453353186552974622447191234 / 10 ^ 45,
   9147699582236790234182488176331136808 / 10 ^ 46,
   -2551419399494624976687795379938870131 / 10 ^ 47,
   -5830772132550425067464089450400357975 / 10 ^ 47,
   2436194802066741624369406967077899429 / 10 ^ 47,
   -5027669280114175589090549859257443655 / 10 ^ 48,
   1100439203195613477083741744972934113 / 10 ^ 49,
   3371763262400985378827698841692001848 / 10 ^ 49,
   -1392388722418162065919366184895799799 / 10 ^ 49,
   2853489380704744320396690990528282989 / 10 ^ 50,
   -5139111834242572618990645803004942055 / 10 ^ 52,
   -1975228829434944283539624015807109122 / 10 ^ 51,
   8099521156704561334071156687025752553 / 10 ^ 52,
   -1652253121639816181915148202653511616 / 10 ^ 52,
   2530543009747888423270610900602673849 / 10 ^ 54,
   1168693973855957658882308765077934746 / 10 ^ 53,
   -4770037049820484758221678040848165974 / 10 ^ 54,
   9699126059056237124207096858985853544 / 10 ^ 55,
   -1293256553803817501044325677449629120 / 10 ^ 56,
   -6969230253185693380530546315855194520 / 10 ^ 56,
   2835145432176936599923196187131687508 / 10 ^ 56,
   -5750982159007047500162666139520842346 / 10 ^ 57,
   6792953783488914564614965664370431421 / 10 ^ 59,
   4182125426111335857807972609348226866 / 10 ^ 58,
   -1697153962004760373219505695058247317 / 10 ^ 58,
   3436215938394319882960425642469428583 / 10 ^ 59,
   -3643995779628021011969396867845457286 / 10 ^ 61,
   -2522535663578433775881227291922899288 / 10 ^ 60,
   1021727557887676825282765833070338486 / 10 ^ 60,
   -2065618928289515596162988977857018414 / 10 ^ 61,
   1987728212387035132762438621481561682 / 10 ^ 63,
   1528011309299919423610824908396958132 / 10 ^ 62,
   -6179660368053257853966883274340069798 / 10 ^ 63,
   1247824052529354935357309838028423545 / 10 ^ 63,
   -1099129014345020826298528140114925449 / 10 ^ 65,
   -9289074058313414187516698493744758188 / 10 ^ 65]

noncomputable section

/-- special_functions.hpp:345 `get`; reading outside of the array gives NaN here. -/
def asymptGet (index : ℕ) : XR := (asymptCoeffs[index]?.map fun c => fin (c : ℝ)).getD nan

/-- special_functions.hpp:347-352 `max_index`. -/
def asymptMaxIndex (L : Limits) : ℕ → ℕ
  | 0 => 0
  | index + 1 => if fin L.epsilon < XR.abs (asymptGet index) then index + 1 else asymptMaxIndex L index

/-- special_functions.hpp:363 the array length `n` in `GammaPQ_asympt_R`. -/
def asymptLen (L : Limits) : ℕ := asymptMaxIndex L asymptCoeffs.length - 1

/-- special_functions.hpp:367-368: the loop that fills `beta`, `k` elements left, the others in the list. -/
def asymptBetaLoop (a : XR) : (k : ℕ) → List XR → List XR
  | 0, beta => beta
  | i + 1, beta => asymptBetaLoop a i ((beta[1]?.getD nan * fin (i + 2 : ℕ) / a + asymptGet (i + 1)) :: beta)

/-- special_functions.hpp:364-368: the array `beta`. -/
def asymptBeta (L : Limits) (a : XR) : List XR :=
  let n := asymptLen L
  asymptBetaLoop a (n - 2) [asymptGet (n - 1), asymptGet n]

/-- special_functions.hpp:369-377: the sum, left when an addition changes nothing. -/
def asymptSum (eta : XR) : (beta : List XR) → (eta_to_the_i y : XR) → XR
  | [], _, y => y
  | b :: beta, pw, y =>
    let y' := y + b * pw
    if XR.eq y' y then y' else asymptSum eta beta (pw * eta) y'

/-- special_functions.hpp:361-380 `GammaPQ_asympt_R`. -/
def asymptR (L : Limits) (a eta eta_squared_half : XR) : XR :=
  let beta := asymptBeta L a
  let y := asymptSum eta beta 1 0
  y / (1 + beta[1]?.getD nan / a) * XR.exp (-a * eta_squared_half) / XR.sqrt a * oneOverSqrt2pi

/-- `std::copysign`; the sign of the only zero is positive. -/
def XR.copysign (x y : XR) : XR := if y < 0 then -(XR.abs x) else XR.abs x

/-- special_functions.hpp:388-395 `GammaP_asympt`. -/
def gammaPAsympt (L : Limits) (a x : XR) : XR :=
  let mu := (x - a) / a
  let eta_squared_half := mln1p L mu
  let eta := XR.copysign (XR.sqrt (2 * eta_squared_half)) mu
  let leading := erfc (-eta * XR.sqrt (a / 2)) / 2
  let correction := -asymptR L a eta eta_squared_half
  leading + correction

/-- special_functions.hpp:403-410 `GammaQ_asympt`. -/
def gammaQAsympt (L : Limits) (a x : XR) : XR :=
  let mu := (x - a) / a
  let eta_squared_half := mln1p L mu
  let eta := XR.copysign (XR.sqrt (2 * eta_squared_half)) mu
  let leading := erfc (eta * XR.sqrt (a / 2)) / 2
  let correction := asymptR L a eta eta_squared_half
  leading + correction

end
end Trng.Special
