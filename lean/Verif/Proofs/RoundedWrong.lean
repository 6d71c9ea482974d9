import Verif.Proofs.RoundedIEEE
import Verif.Proofs.RoundedCdf
import Verif.Model.GammaDists
import Mathlib.Analysis.Complex.ExponentialBounds
import Mathlib.Analysis.Real.Pi.Bounds

/-! Overflow, underflow and cancellation in the distributions of Model/Rounded.lean, and the agreement of that model with exact
arithmetic. -/
namespace Trng
open XR Spec Machine Filter Topology
open Classical

/-! ### Exact arithmetic -/

theorem exact_round (x : XR) : Machine.exact.round x = x := by cases x <;> rfl

namespace Rounded

theorem fin_neg_one : fin (-1) = (-1 : XR) := by rw [one_def, neg_fin]
theorem fin_neg_two : fin (-2) = (-2 : XR) := by rw [two_def, neg_fin]

theorem fin_half : fin 0.5 = fin (1 / 2) := by norm_num

theorem exact_twosided (mu : XR) : twosidedIcdf .exact mu = Trng.twosidedIcdf mu := by
  funext x; simp only [twosidedIcdf, Trng.twosidedIcdf, Machine.mul, Machine.div, Machine.sub, exact_round, fin_neg_one]; rfl
theorem exact_rayleigh (nu : XR) : rayleighIcdf .exact nu = Trng.rayleighIcdf nu := by
  funext x; simp only [rayleighIcdf, Trng.rayleighIcdf, Machine.mul, Machine.div, Machine.sub, exact_round, fin_neg_two]; rfl

theorem exact_eq :
    (∀ mu, exponential .exact mu = exponentialDist mu) ∧ (∀ mu, twosidedExponential .exact mu = twosidedExponentialDist mu) ∧
    (∀ m d, tent .exact m d = tentDist m d) ∧ (∀ g t, pareto .exact g t = paretoDist g t) ∧ (∀ g t, powerlaw .exact g t = powerlawDist g t) ∧
    (∀ t b, weibull .exact t b = weibullDist t b) ∧ (∀ t e, logistic .exact t e = logisticDist t e) ∧
    (∀ t e, extremeValue .exact t e = extremeValueDist t e) ∧ (∀ nu, rayleigh .exact nu = rayleighDist nu) := by
  refine ⟨fun mu => ?_, fun mu => ?_, fun m d => ?_, fun g t => ?_, fun g t => ?_, fun t b => ?_, fun t e => ?_, fun t e => ?_, fun nu => ?_⟩
  · simp only [exponential, exponentialDist, Machine.mul, Machine.div, Machine.sub, exact_round, fin_neg_one]; rfl
  · simp only [twosidedExponential, twosidedExponentialDist, exact_twosided, Machine.mul, Machine.div, Machine.sub, exact_round, fin_neg_one]; rfl
  · simp only [tent, tentDist, tentIcdf, Trng.tentIcdf, Machine.add, Machine.mul, Machine.div, Machine.sub, exact_round, fin_neg_one]; rfl
  · simp only [pareto, paretoDist, Machine.add, Machine.mul, Machine.div, Machine.sub, exact_round, fin_neg_one]; rfl
  · simp only [powerlaw, powerlawDist, Machine.add, Machine.mul, Machine.div, Machine.sub, exact_round, fin_neg_one]; rfl
  · simp only [weibull, weibullDist, Machine.add, Machine.mul, Machine.div, Machine.sub, exact_round, fin_neg_one]; rfl
  · simp only [logistic, logisticDist, logisticIcdf, Trng.logisticIcdf, Machine.add, Machine.mul, Machine.div, Machine.sub, exact_round, fin_neg_one]; rfl
  · simp only [extremeValue, extremeValueDist, Machine.add, Machine.mul, Machine.div, Machine.sub, exact_round, fin_neg_one]; rfl
  · simp only [rayleigh, rayleighDist, exact_rayleigh, Machine.add, Machine.mul, Machine.div, Machine.sub, exact_round, fin_neg_one]; rfl

theorem exact_eq' : (∀ t e, cauchy .exact Real.pi (1 / Real.pi) t e = cauchyDist t e) ∧
    (∀ inv m s a b, truncatedNormal .exact inv (1 / Real.sqrt 2) 0.6744897501960817 (1 / Real.sqrt (2 * Real.pi)) m s a b = truncatedNormalDist inv m s a b) ∧
    (∀ inv m s, normalCdf .exact (1 / Real.sqrt 2) 0.6744897501960817 m s = (normalDist inv m s).cdf) ∧
    (∀ inv m s, lognormalCdf .exact (1 / Real.sqrt 2) m s = (lognormalDist inv m s).cdf) ∧
    (maxwellPdf .exact (Real.sqrt (2 / Real.pi)) = Trng.maxwellPdf) ∧
    (∀ GP inv nu, chiSquarePdf .exact nu = (chiSquareDist GP inv nu).pdf) := by
  refine ⟨fun t e => ?_, fun inv m s a b => ?_, fun inv m s => ?_, fun inv m s => ?_, ?_, fun GP inv nu => ?_⟩
  · simp only [cauchy, cauchyDist, cauchyIcdf, Trng.cauchyIcdf, Machine.add, Machine.mul, Machine.div, Machine.sub, exact_round, fin_neg_one]; rfl
  · simp only [truncatedNormal, truncatedNormalDist, truncatedNormalIcdf, Trng.truncatedNormalIcdf, truncPhiA, truncPhiB, Trng.truncPhiA, Trng.truncPhiB, Phi, Trng.Phi, Machine.add, Machine.mul, Machine.div, Machine.sub, exact_round, fin_half]; rfl
  · funext x; simp only [normalCdf, normalDist, Phi, Trng.Phi, Machine.add, Machine.mul, Machine.div, Machine.sub, exact_round, fin_half]; rfl
  · funext x; simp only [lognormalCdf, lognormalDist, Machine.add, Machine.mul, Machine.div, Machine.sub, exact_round, fin_neg_one]; rfl
  · funext t x; simp only [maxwellPdf, Trng.maxwellPdf, Machine.add, Machine.mul, Machine.div, Machine.sub, exact_round, fin_neg_one]; rfl
  · funext x; simp only [chiSquarePdf, chiSquareDist, Machine.add, Machine.mul, Machine.div, Machine.sub, exact_round, fin_neg_one]; rfl

end Rounded

/-! ### Overflow and underflow -/

theorem ieee_over {p : ℕ} {lo hi : ℤ} (hp : 1 ≤ p) (h : lo ≤ hi) {x : ℝ} (hx : 2 ^ hi ≤ x) : ieee p lo hi x = pinf := by
  have h0 : (0 : ℝ) ≤ x := (two_zpow_pos hi).le.trans hx
  rw [ieee_nonneg h0, if_pos]
  have := nearestPos_mono (lo := lo) hp (two_zpow_pos hi).le hx
  rwa [nearestPos_two_zpow hp h] at this

theorem ieee_under {p : ℕ} {lo hi : ℤ} (hp : 1 ≤ p) {x : ℝ} (h0 : 0 ≤ x) (hx : x < 2 ^ (lo - 1)) : ieee p lo hi x = fin 0 := by
  rcases h0.eq_or_lt with rfl | h0'
  · exact ieee_zero
  have hl : (2 : ℝ) ^ Int.log 2 x < 2 ^ (lo - 1) := (log_le h0').trans_lt hx
  have hl' : Int.log 2 x < lo - 1 := (zpow_lt_zpow_iff_right₀ one_lt_two).1 hl
  have hu : ulpExp p lo x = lo := by unfold ulpExp; omega
  have hz : nearestPos p lo x = 0 := by
    unfold nearestPos
    rw [hu]
    have q : x / 2 ^ lo < 1 / 2 := by
      rw [div_lt_iff₀ (two_zpow_pos lo)]
      rw [zpow_sub_one₀ two_ne_zero] at hx
      linarith
    have q0 : 0 ≤ x / 2 ^ lo := div_nonneg h0 (two_zpow_pos lo).le
    have f : ⌊x / 2 ^ lo⌋ = 0 := Int.floor_eq_zero_iff.2 ⟨q0, by linarith⟩
    unfold nearestEven
    rw [f, if_pos (by push_cast; linarith)]
    simp
  rw [ieee_nonneg h0, hz, if_neg (not_le.2 (two_zpow_pos hi))]

theorem ieee_under_neg {p : ℕ} {lo hi : ℤ} (hp : 1 ≤ p) (hlo : lo < 0) (hhi : 1 < hi) {x : ℝ} (h0 : 0 ≤ x) (hx : x < 2 ^ (lo - 1)) :
    ieee p lo hi (-x) = fin 0 := by
  rcases h0.eq_or_lt with rfl | h0'
  · rw [neg_zero]; exact ieee_zero
  have := ieee_under (hi := hi) hp h0 hx
  rw [ieee_nonneg h0] at this
  split_ifs at this with h
  rw [ieee_neg (by linarith), neg_neg, if_neg h, (fin_inj _ _).1 this, neg_zero]

namespace Rounded

theorem dbl_rnd (x : ℝ) : doubleMachine.rnd x = ieee 53 (-1074) 1024 x := rfl
theorem dbl_two {j : ℤ} (h : -1074 ≤ j) (h' : j < 1024) : doubleMachine.rnd (2 ^ j) = fin (2 ^ j) := ieee_two_zpow (by norm_num) h h'
theorem dbl_over {x : ℝ} (h : (2 : ℝ) ^ (1024 : ℤ) ≤ x) : doubleMachine.rnd x = pinf := ieee_over (by norm_num) (by norm_num) h
theorem dbl_under {x : ℝ} (h0 : 0 ≤ x) (h : x < (2 : ℝ) ^ (-1075 : ℤ)) : doubleMachine.rnd x = fin 0 := ieee_under (by norm_num) h0 (by norm_num at h ⊢; exact h)
theorem dbl_under_neg {x : ℝ} (h0 : 0 ≤ x) (h : x < (2 : ℝ) ^ (-1075 : ℤ)) : doubleMachine.rnd (-x) = fin 0 :=
  ieee_under_neg (by norm_num) (by norm_num) (by norm_num) h0 (by norm_num at h ⊢; exact h)

theorem mul_two_zpow (i j : ℤ) : doubleMachine.mul (fin (2 ^ i)) (fin (2 ^ j)) = doubleMachine.rnd (2 ^ (i + j)) := by
  rw [mul_fin, zpow_add₀ two_ne_zero]
theorem two_zpow : (2 : XR) = fin (2 ^ (1 : ℤ)) := by rw [two_def, zpow_one]

theorem tent_cdf_nan : (tent doubleMachine (fin 0) (fin (2 ^ (600 : ℤ)))).cdf (fin (-(2 ^ (599 : ℤ)))) = nan := by
  have R := double_sound.rounding
  have e1 : doubleMachine.sub (fin (-(2 ^ (599 : ℤ)))) (fin 0) = fin (-(2 ^ (599 : ℤ))) := by
    rw [sub_fin, sub_zero]; exact R.neg _ (dbl_two (by norm_num) (by norm_num))
  have e2 : doubleMachine.add (fin (-(2 ^ (599 : ℤ)))) (fin (2 ^ (600 : ℤ))) = fin (2 ^ (599 : ℤ)) := by
    rw [add_fin, ← dbl_two (show (-1074 : ℤ) ≤ 599 by norm_num) (by norm_num)]
    congr 1
    rw [show (600 : ℤ) = 599 + 1 by norm_num, zpow_add_one₀ two_ne_zero]; ring
  have e3 : doubleMachine.mul (doubleMachine.mul 2 (fin (2 ^ (600 : ℤ)))) (fin (2 ^ (600 : ℤ))) = pinf := by
    rw [two_zpow, mul_two_zpow, dbl_two (by norm_num) (by norm_num), mul_two_zpow]
    exact dbl_over (zpow_le_zpow_right₀ one_le_two (by norm_num))
  have e4 : doubleMachine.mul (fin (2 ^ (599 : ℤ))) (fin (2 ^ (599 : ℤ))) = pinf := by
    rw [mul_two_zpow]
    exact dbl_over (zpow_le_zpow_right₀ one_le_two (by norm_num))
  simp only [tent, e1, e2, e3, e4]
  rw [if_neg, if_pos]
  · rfl
  · rw [zero_def, fin_le]; exact neg_nonpos_of_nonneg (two_zpow_pos 599).le
  · rw [neg_fin, fin_le, not_le, neg_lt_neg_iff]
    exact zpow_lt_zpow_right₀ one_lt_two (by norm_num)

theorem rayleigh_nan : (rayleigh doubleMachine (fin (2 ^ (-600 : ℤ)))).cdf (fin (2 ^ (-600 : ℤ))) = nan ∧
    (rayleigh doubleMachine (fin (2 ^ (-600 : ℤ)))).pdf (fin (2 ^ (-600 : ℤ))) = nan := by
  have h1200 : doubleMachine.rnd (2 ^ (-600 + -600 : ℤ)) = fin 0 := dbl_under (two_zpow_pos _).le (zpow_lt_zpow_right₀ one_lt_two (by norm_num))
  have e1 : doubleMachine.mul (doubleMachine.mul 2 (fin (2 ^ (-600 : ℤ)))) (fin (2 ^ (-600 : ℤ))) = fin 0 := by
    rw [two_zpow, mul_two_zpow, dbl_two (by norm_num) (by norm_num), mul_two_zpow]
    exact dbl_under (two_zpow_pos _).le (zpow_lt_zpow_right₀ one_lt_two (by norm_num))
  have e2 : doubleMachine.mul (-fin (2 ^ (-600 : ℤ))) (fin (2 ^ (-600 : ℤ))) = fin 0 := by
    rw [neg_fin, mul_fin, neg_mul, ← zpow_add₀ two_ne_zero]
    exact dbl_under_neg (two_zpow_pos _).le (zpow_lt_zpow_right₀ one_lt_two (by norm_num))
  have e3 : doubleMachine.mul (fin (2 ^ (-600 : ℤ))) (fin (2 ^ (-600 : ℤ))) = fin 0 := by rw [mul_two_zpow, h1200]
  have hn : ¬ fin ((2 : ℝ) ^ (-600 : ℤ)) ≤ (0 : XR) := by rw [zero_def, fin_le]; exact not_le.2 (two_zpow_pos _)
  have z : doubleMachine.div (fin 0) (fin 0) = nan := by
    show doubleMachine.round (fin 0 / fin 0) = nan
    rw [fin_div', if_pos rfl, infSign, if_neg (lt_irrefl _), if_neg (lt_irrefl _)]; rfl
  have z1 : doubleMachine.div (fin (2 ^ (-600 : ℤ))) (fin 0) = pinf := by
    show doubleMachine.round (fin _ / fin 0) = pinf
    rw [fin_div', if_pos rfl, infSign_pos (two_zpow_pos _)]; rfl
  have z2 : doubleMachine.mul (-pinf) (fin (2 ^ (-600 : ℤ))) = ninf := by
    show doubleMachine.round (infSign (-(2 ^ (-600 : ℤ)))) = ninf
    rw [infSign_neg (by have := two_zpow_pos (-600); linarith)]; rfl
  have z3 : doubleMachine.div ninf 2 = ninf := by
    rw [two_def]
    show doubleMachine.round (if (2 : ℝ) < 0 then pinf else ninf) = ninf
    rw [if_neg (by norm_num)]; rfl
  have z4 : doubleMachine.mul pinf (fin 0) = nan := by
    show doubleMachine.round (infSign 0) = nan
    rw [infSign, if_neg (lt_irrefl _), if_neg (lt_irrefl _)]; rfl
  constructor
  · simp only [rayleigh, e1, e2]
    rw [if_neg hn, z]
    rfl
  · simp only [rayleigh, e3]
    rw [if_neg hn, z1, z2, z3, double_sound.library.exp_ninf, z4]

theorem weibull_nan : (weibull doubleMachine 1 2).pdf (fin (2 ^ (600 : ℤ))) = nan := by
  have R := double_sound.rounding
  have e1 : doubleMachine.div (fin (2 ^ (600 : ℤ))) 1 = fin (2 ^ (600 : ℤ)) := by
    rw [one_def, div_fin _ one_ne_zero, div_one]; exact dbl_two (by norm_num) (by norm_num)
  have e2 : doubleMachine.pow (fin (2 ^ (600 : ℤ))) 2 = pinf := by
    show doubleMachine.round (XR.pow (fin (2 ^ (600 : ℤ))) 2) = pinf
    rw [two_def, pow_fin (two_zpow_pos _), round_fin]
    refine dbl_over ?_
    rw [show (2 : ℝ) = ((2 : ℕ) : ℝ) by norm_num, Real.rpow_natCast, Nat.cast_ofNat, ← zpow_natCast, ← zpow_mul]
    exact zpow_le_zpow_right₀ one_le_two (by norm_num)
  have e3 : doubleMachine.div pinf (fin (2 ^ (600 : ℤ))) = pinf := by
    show doubleMachine.round (if (2 : ℝ) ^ (600 : ℤ) < 0 then ninf else pinf) = pinf
    rw [if_neg (not_lt.2 (two_zpow_pos _).le)]; rfl
  have e4 : doubleMachine.mul (doubleMachine.div 2 1) pinf = pinf := by
    rw [one_def, two_def, div_fin _ one_ne_zero, div_one, R.two]
    show doubleMachine.round (infSign 2) = pinf
    rw [infSign_pos two_pos]; rfl
  have z4 : doubleMachine.mul pinf (fin 0) = nan := by
    show doubleMachine.round (infSign 0) = nan
    rw [infSign, if_neg (lt_irrefl _), if_neg (lt_irrefl _)]; rfl
  have hp := two_zpow_pos 600
  simp only [weibull]
  rw [e1, if_neg (by rw [zero_def, fin_lt]; exact not_lt.2 hp.le), if_pos (by rw [zero_def, fin_lt]; exact hp), e2, e3, e4, neg_pinf',
    double_sound.library.exp_ninf, z4]

theorem maxwell_nan {c : ℝ} (hc : 0 < c) : maxwellPdf doubleMachine c 1 (fin (2 ^ (600 : ℤ))) = nan := by
  have R := double_sound.rounding
  have e2 : doubleMachine.mul (fin (2 ^ (600 : ℤ))) (fin (2 ^ (600 : ℤ))) = pinf := by
    rw [mul_two_zpow]; exact dbl_over (zpow_le_zpow_right₀ one_le_two (by norm_num))
  have e3 : doubleMachine.mul 1 1 = fin 1 := by rw [one_def, mul_fin, one_mul, R.one]
  have e4 : doubleMachine.mul 2 (fin 1) = fin 2 := by rw [two_def, mul_fin, mul_one, R.two]
  have e5 : doubleMachine.div ninf (fin 2) = ninf := by
    show doubleMachine.round (if (2 : ℝ) < 0 then pinf else ninf) = ninf
    rw [if_neg (by norm_num)]; rfl
  have e6 : doubleMachine.mul (fin c) pinf = pinf := by
    show doubleMachine.round (infSign c) = pinf
    rw [infSign_pos hc]; rfl
  have z4 : doubleMachine.mul pinf (fin 0) = nan := by
    show doubleMachine.round (infSign 0) = nan
    rw [infSign, if_neg (lt_irrefl _), if_neg (lt_irrefl _)]; rfl
  simp only [maxwellPdf]
  rw [e2, e3, e4, neg_pinf', e5, double_sound.library.exp_ninf, e6, z4]
  rfl

theorem student_nan (nu : ℤ) : studentArg doubleMachine nu (fin (2 ^ (600 : ℤ))) = nan := by
  have e2 : doubleMachine.mul (fin (2 ^ (600 : ℤ))) (fin (2 ^ (600 : ℤ))) = pinf := by
    rw [mul_two_zpow]; exact dbl_over (zpow_le_zpow_right₀ one_le_two (by norm_num))
  have e4 : doubleMachine.mul 2 pinf = pinf := by
    rw [two_def]
    show doubleMachine.round (infSign 2) = pinf
    rw [infSign_pos two_pos]; rfl
  simp only [studentArg]
  rw [e2, show doubleMachine.add pinf (fin (nu : ℝ)) = pinf from rfl, show doubleMachine.sqrt pinf = pinf from rfl, e4,
    show doubleMachine.add (fin (2 ^ (600 : ℤ))) pinf = pinf from rfl]
  rfl

theorem fact_499 : 3 ^ 1024 ≤ Nat.factorial 499 := by decide +kernel
theorem pow_499 : 2 ^ 1024 ≤ 500 ^ 499 := by decide +kernel

theorem ieee_dyadic {p : ℕ} {lo hi e : ℤ} (hlo : lo ≤ e) (hhi : p + e ≤ hi) {n : ℕ} (h : n < 2 ^ p) : ieee p lo hi (n * 2 ^ e) = fin (n * 2 ^ e) := by
  rcases Nat.eq_zero_or_pos n with rfl | h0
  · rw [Nat.cast_zero, zero_mul]; exact ieee_zero
  have h0' : (0 : ℝ) < n * 2 ^ e := mul_pos (by exact_mod_cast h0) (two_zpow_pos e)
  have h' : (n : ℝ) * 2 ^ e < 2 ^ (p + e : ℤ) := by
    rw [zpow_add₀ two_ne_zero, zpow_natCast]
    exact mul_lt_mul_of_pos_right (by exact_mod_cast h) (two_zpow_pos e)
  have hl : Int.log 2 ((n : ℝ) * 2 ^ e) < p + e := (zpow_lt_zpow_iff_right₀ (one_lt_two (α := ℝ))).1 ((log_le h0').trans_lt h')
  have hu : ulpExp p lo (n * 2 ^ e) ≤ e := by unfold ulpExp; omega
  have hn : nearestPos p lo (n * 2 ^ e) = n * 2 ^ e := by
    unfold nearestPos
    have e : (n : ℝ) * 2 ^ e / 2 ^ ulpExp p lo (n * 2 ^ e) = ((n * 2 ^ (e - ulpExp p lo (n * 2 ^ e)).toNat : ℤ) : ℝ) := by
      push_cast
      rw [← zpow_natCast, Int.toNat_of_nonneg (by omega), zpow_sub₀ two_ne_zero, mul_div_assoc]
    rw [e, nearestEven_int, ← e, div_mul_cancel₀ _ (two_zpow_pos _).ne']
  rw [ieee_nonneg h0'.le, hn, if_neg]
  rw [not_le]
  exact h'.trans_le (zpow_le_zpow_right₀ one_le_two hhi)

theorem ieee_nat {p : ℕ} {lo hi : ℤ} (hlo : lo ≤ 0) (hhi : p ≤ hi) {n : ℕ} (h : n < 2 ^ p) : ieee p lo hi n = fin n := by
  have := ieee_dyadic (lo := lo) (hi := hi) (e := 0) hlo (by omega) h
  rwa [zpow_zero, mul_one] at this

theorem dbl_dyadic {n : ℕ} {e : ℤ} (h : n < 2 ^ 53) (h1 : -1074 ≤ e) (h2 : e ≤ 971) : doubleMachine.rnd (n * 2 ^ e) = fin (n * 2 ^ e) :=
  ieee_dyadic h1 (by push_cast; omega) h
theorem dbl_nat {n : ℕ} (h : n < 2 ^ 53) : doubleMachine.rnd n = fin n := ieee_nat (by norm_num) (by norm_num) h

theorem ieee_near {p : ℕ} {lo hi e : ℤ} (hp : 1 ≤ p) (hlo : lo ≤ e) (hhi : p + e ≤ hi) {n : ℕ} (h : n < 2 ^ p) {x : ℝ}
    (h0 : 2 ^ (p + e - 1) ≤ x) (h1 : n * 2 ^ e - 2 ^ (e - 1) < x) (h2 : x < n * 2 ^ e + 2 ^ (e - 1)) : ieee p lo hi x = fin (n * 2 ^ e) := by
  have hh : (2 : ℝ) ^ (e - 1) = 2 ^ e / 2 := by rw [zpow_sub_one₀ two_ne_zero]; ring
  have hx : 0 < x := (two_zpow_pos _).trans_le h0
  have hn : (n : ℝ) + 1 ≤ 2 ^ p := by exact_mod_cast h
  have hu' : x < 2 ^ (p + e) := by
    rw [zpow_add₀ two_ne_zero, zpow_natCast]
    rw [hh] at h2
    nlinarith [two_zpow_pos e]
  have a : Int.log 2 x < p + e := (zpow_lt_zpow_iff_right₀ (one_lt_two (α := ℝ))).1 ((log_le hx).trans_lt hu')
  have b : p + e - 1 < Int.log 2 x + 1 := (zpow_lt_zpow_iff_right₀ (one_lt_two (α := ℝ))).1 (h0.trans_lt lt_log)
  have hu : ulpExp p lo x = e := by unfold ulpExp; omega
  have q : nearestEven (x / 2 ^ e) = n := by
    have c := abs_le.1 (nearestEven_close (x / 2 ^ e))
    have c1 : x / 2 ^ e < n + 1 / 2 := by rw [div_lt_iff₀ (two_zpow_pos e)]; rw [hh] at h2; linarith
    have c2 : n - 1 / 2 < x / 2 ^ e := by rw [lt_div_iff₀ (two_zpow_pos e)]; rw [hh] at h1; linarith
    have d1 : (nearestEven (x / 2 ^ e) : ℝ) < n + 1 := by linarith
    have d2 : (n : ℝ) < nearestEven (x / 2 ^ e) + 1 := by linarith
    have d1 : nearestEven (x / 2 ^ e) < n + 1 := by exact_mod_cast d1
    have d2 : (n : ℤ) < nearestEven (x / 2 ^ e) + 1 := by exact_mod_cast d2
    omega
  have hv : nearestPos p lo x = n * 2 ^ e := by
    unfold nearestPos; rw [hu, q]; norm_num
  rw [ieee_nonneg hx.le, hv, if_neg]
  rw [not_le]
  calc (n : ℝ) * 2 ^ e < 2 ^ p * 2 ^ e := mul_lt_mul_of_pos_right (by linarith) (two_zpow_pos e)
    _ = 2 ^ (p + e) := by rw [zpow_add₀ two_ne_zero, zpow_natCast]
    _ ≤ 2 ^ hi := zpow_le_zpow_right₀ one_le_two hhi

theorem cauchy_double : doubleMachine.mul (fin oneOverPiDouble) (doubleMachine.atan pinf) = fin (1 / 2) ∧
    doubleMachine.mul (fin oneOverPiDouble) (doubleMachine.atan ninf) = fin (-(1 / 2)) := by
  have R := double_sound.rounding
  have h1 := Real.pi_gt_d20
  have h2 := Real.pi_lt_d20
  have e1 : doubleMachine.rnd (Real.pi / 2) = fin ((7074237752028440 : ℕ) * 2 ^ (-52 : ℤ)) := by
    refine ieee_near (by norm_num) (by norm_num) (by norm_num) (by norm_num) ?_ ?_ ?_
    · norm_num; linarith
    · norm_num; linarith
    · norm_num; linarith
  have e2 : doubleMachine.rnd (oneOverPiDouble * ((7074237752028440 : ℕ) * 2 ^ (-52 : ℤ))) = fin (1 / 2) := by
    rw [show (1 / 2 : ℝ) = (2 ^ 52 : ℕ) * 2 ^ (-53 : ℤ) by norm_num]
    refine ieee_near (by norm_num) (by norm_num) (by norm_num) (by norm_num) ?_ ?_ ?_ <;> norm_num [oneOverPiDouble]
  have neg : ∀ {x y : ℝ}, 0 < x → doubleMachine.rnd x = fin y → doubleMachine.rnd (-x) = fin (-y) := by
    intro x y hx h
    rw [dbl_rnd, ieee_nonneg hx.le] at h
    rw [dbl_rnd, ieee_neg (by linarith), neg_neg]
    split_ifs at h with h'
    rw [if_neg h', (fin_inj _ _).1 h]
  have hc : 0 < oneOverPiDouble := by norm_num [oneOverPiDouble]
  constructor
  · show doubleMachine.mul (fin oneOverPiDouble) (doubleMachine.rnd (Real.pi / 2)) = _
    rw [e1, mul_fin, e2]
  · show doubleMachine.mul (fin oneOverPiDouble) (doubleMachine.rnd (-(Real.pi / 2))) = _
    rw [neg (by linarith) e1, mul_fin, _root_.mul_neg]
    exact neg (mul_pos hc (by norm_num)) e2

theorem chi_nan : chiSquarePdf doubleMachine 1000 1000 = nan := by
  have R := double_sound.rounding
  have L := double_sound.library
  have h1000 : (1000 : XR) = fin 1000 := by rw [ofNat_fin]; norm_num
  have e1 : doubleMachine.div (fin 1000) 2 = fin 500 := by
    rw [two_def, div_fin _ two_ne_zero, show (1000 / 2 : ℝ) = ((500 : ℕ) : ℝ) by norm_num, dbl_nat (by norm_num)]; norm_num
  have e2 : doubleMachine.sub (fin 500) 1 = fin 499 := by
    rw [one_def, sub_fin, show (500 - 1 : ℝ) = ((499 : ℕ) : ℝ) by norm_num, dbl_nat (by norm_num)]; norm_num
  have e3 : doubleMachine.pow (fin 500) (fin 499) = pinf := by
    show doubleMachine.round (XR.pow (fin 500) (fin 499)) = pinf
    rw [pow_fin (by norm_num), round_fin]
    refine dbl_over ?_
    rw [show (499 : ℝ) = ((499 : ℕ) : ℝ) by norm_num, Real.rpow_natCast]
    exact_mod_cast pow_499
  have e4 : fin 1024 ≤ doubleMachine.lnGamma (fin 500) := by
    show fin 1024 ≤ doubleMachine.round (XR.lnGamma (fin 500))
    have : ¬ ∃ n : ℕ, (500 : ℝ) = -n := by rintro ⟨n, h⟩; have : (0 : ℝ) ≤ n := n.cast_nonneg; linarith
    rw [XR.lnGamma, if_neg this, round_fin, show (1024 : ℝ) = 2 ^ (10 : ℤ) by norm_num, ← dbl_two (j := 10) (by norm_num) (by norm_num)]
    refine R.mono _ _ ?_
    have g : Real.Gamma 500 = (Nat.factorial 499 : ℕ) := by
      have := Real.Gamma_nat_eq_factorial 499
      rw [← this]; norm_num
    rw [g, Nat.abs_cast, Real.le_log_iff_exp_le (by exact_mod_cast Nat.factorial_pos _)]
    have h3 : Real.exp 1 ≤ 3 := by have := Real.exp_one_lt_d9; linarith
    calc Real.exp (2 ^ (10 : ℤ)) = Real.exp 1 ^ 1024 := by rw [← Real.exp_nat_mul]; norm_num
      _ ≤ 3 ^ 1024 := pow_le_pow_left₀ (Real.exp_pos _).le h3 _
      _ ≤ _ := by exact_mod_cast fact_499
  have e5 : fin 1024 ≤ doubleMachine.add (fin 500) (doubleMachine.lnGamma (fin 500)) := by
    have := add_left R 500 e4
    refine le_trans' ?_ this
    rw [add_fin, show (1024 : ℝ) = 2 ^ (10 : ℤ) by norm_num, ← dbl_two (j := 10) (by norm_num) (by norm_num)]
    exact R.mono _ _ (by norm_num)
  have e6 : doubleMachine.exp (doubleMachine.add (fin 500) (doubleMachine.lnGamma (fin 500))) = pinf := by
    have := L.exp_mono _ _ e5
    have h : doubleMachine.exp (fin 1024) = pinf := by
      show doubleMachine.round (XR.exp (fin 1024)) = pinf
      rw [exp_fin, round_fin]
      refine dbl_over ?_
      have h2 : (2 : ℝ) ≤ Real.exp 1 := by have := Real.exp_one_gt_d9; linarith
      calc (2 : ℝ) ^ (1024 : ℤ) = 2 ^ 1024 := by norm_num
        _ ≤ Real.exp 1 ^ 1024 := pow_le_pow_left₀ two_pos.le h2 _
        _ = Real.exp 1024 := by rw [← Real.exp_nat_mul]; norm_num
    rw [h] at this
    revert this
    cases doubleMachine.exp (doubleMachine.add (fin 500) (doubleMachine.lnGamma (fin 500))) <;> intro this <;> first | rfl | exact absurd this id
  have e7 : doubleMachine.mul pinf 2 = pinf := by
    rw [two_def]
    show doubleMachine.round (infSign 2) = pinf
    rw [infSign_pos two_pos]; rfl
  simp only [chiSquarePdf]
  rw [h1000, if_neg (by rw [zero_def, fin_lt]; norm_num), show (((1000 : ℤ) : ℝ)) = 1000 by norm_num, e1, e2, e3, e6, e7]
  rfl

/-! ### The tail of the normal distribution -/

theorem erf_tail {x : ℝ} (hx : 1 ≤ x) : 1 - erfR x ≤ Real.exp (-x ^ 2) := by
  have hd : ∀ y : ℝ, HasDerivAt (fun y => 1 - erfR y - Real.exp (-y ^ 2)) (Real.exp (-y ^ 2) * (2 * y - 2 / Real.sqrt Real.pi)) y := by
    intro y
    have a := (hasDerivAt_erfR y).const_sub 1
    have b : HasDerivAt (fun y : ℝ => Real.exp (-y ^ 2)) (Real.exp (-y ^ 2) * (-(2 * y))) y := by
      have : HasDerivAt (fun y : ℝ => Real.exp (-y ^ 2)) (Real.exp (-y ^ 2) * -((2 : ℕ) * y ^ (2 - 1))) y := ((hasDerivAt_pow 2 y).neg).exp
      convert this using 2
      norm_num
    have := a.sub b
    rw [show Real.exp (-y ^ 2) * (2 * y - 2 / Real.sqrt Real.pi) = -(2 / Real.sqrt Real.pi * Real.exp (-y ^ 2)) - Real.exp (-y ^ 2) * -(2 * y) by ring]
    exact this
  have hs : 1 ≤ Real.sqrt Real.pi := Real.one_le_sqrt.2 (by linarith [Real.two_le_pi])
  have hm : MonotoneOn (fun y => 1 - erfR y - Real.exp (-y ^ 2)) (Set.Ici 1) := by
    refine monotoneOn_of_deriv_nonneg (convex_Ici 1) (fun y _ => (hd y).continuousAt.continuousWithinAt) (fun y _ => (hd y).differentiableAt.differentiableWithinAt) ?_
    intro y hy
    rw [interior_Ici] at hy
    rw [(hd y).deriv]
    have hy : 1 < y := hy
    have : 2 / Real.sqrt Real.pi ≤ 2 := by rw [div_le_iff₀ (by linarith)]; linarith
    exact mul_nonneg (Real.exp_pos _).le (by linarith)
  have ht : Tendsto (fun y => 1 - erfR y - Real.exp (-y ^ 2)) atTop (𝓝 0) := by
    have a : Tendsto (fun y : ℝ => Real.exp (-y ^ 2)) atTop (𝓝 0) :=
      Real.tendsto_exp_atBot.comp (tendsto_neg_atTop_atBot.comp (tendsto_pow_atTop two_ne_zero))
    have := (tendsto_erfR_top.const_sub 1).sub a
    simpa using this
  have : 1 - erfR x - Real.exp (-x ^ 2) ≤ 0 := by
    refine ge_of_tendsto ht ?_
    filter_upwards [eventually_ge_atTop x] with y hy
    exact hm hx (hx.trans hy) hy
  linarith

theorem dbl_near_one {d : ℝ} (h0 : 0 ≤ d) (h : d ≤ 2 ^ (-60 : ℤ)) : doubleMachine.rnd (1 - d) = fin 1 := by
  have h1 : (2 : ℝ) ^ (-60 : ℤ) ≤ 1 := by norm_num
  rw [dbl_rnd, ieee_nonneg (by linarith), nearestPos_near_one (d := d) (by norm_num) (by norm_num) (le_refl _) (by linarith) ?_ (Or.inr (by norm_num)), if_neg]
  · rw [not_le]
    exact one_lt_zpow₀ one_lt_two (by norm_num)
  · refine h.trans_lt (zpow_lt_zpow_right₀ one_lt_two (by norm_num))

theorem Phi_one {c q : ℝ} (hc : 0.7 ≤ c) (hq : 0 < q) (hq' : q ≤ 1) (hc' : c ≤ 1) {x : XR} (hx : fin 12 ≤ x) : Phi doubleMachine c q x = fin 1 := by
  have R := double_sound.rounding
  have L := double_sound.library
  have e8 : fin 8 ≤ doubleMachine.mul x (fin c) := by
    refine le_trans' ?_ (mul_right R (by linarith) hx)
    rw [mul_fin, show (8 : ℝ) = 2 ^ (3 : ℤ) by norm_num, ← dbl_two (j := 3) (by norm_num) (by norm_num)]
    exact R.mono _ _ (by norm_num; linarith)
  have s1 : ∀ r : ℝ, |r| ≤ 1 → ∃ s : ℝ, doubleMachine.mul (fin r) (fin c) = fin s ∧ s ≤ 1 := by
    intro r hr
    obtain ⟨y, h1, h2⟩ := ieee_between (p := 53) (lo := -1074) (hi := 1024) (x := r * c) (by norm_num) (by norm_num) (by norm_num)
      (by rw [abs_mul, abs_of_nonneg (show 0 ≤ c by linarith)]; nlinarith [abs_nonneg r])
    exact ⟨y, by rw [mul_fin]; exact h1, (abs_le.1 h2).2⟩
  obtain ⟨s, es, hs⟩ := s1 q (by rw [abs_of_pos hq]; exact hq')
  obtain ⟨s', es', hs'⟩ := s1 (-q) (by rw [abs_neg, abs_of_pos hq]; exact hq')
  have er : Unit (doubleMachine.mul (fin (1 / 2)) (doubleMachine.erfc (doubleMachine.mul x (fin c)))) :=
    half_mul_unit R (erfc_bounds L (le_self' e8)).1 (erfc_bounds L (le_self' e8)).2
  have eu : doubleMachine.mul (fin (1 / 2)) (doubleMachine.erfc (doubleMachine.mul x (fin c))) ≤ fin (2 ^ (-60 : ℤ)) := by
    have h8 : doubleMachine.erfc (fin 8) ≤ fin (2 ^ (-60 : ℤ)) := by
      show doubleMachine.rnd (1 - erfR 8) ≤ _
      rw [← dbl_two (j := -60) (by norm_num) (by norm_num)]
      refine R.mono _ _ ((erf_tail (by norm_num)).trans ?_)
      have h2 : (2 : ℝ) ≤ Real.exp 1 := by have := Real.exp_one_gt_d9; linarith
      have h3 : (2 : ℝ) ^ 60 ≤ Real.exp 64 := by
        calc (2 : ℝ) ^ 60 ≤ 2 ^ 64 := by norm_num
          _ ≤ Real.exp 1 ^ 64 := pow_le_pow_left₀ two_pos.le h2 _
          _ = Real.exp 64 := by rw [← Real.exp_nat_mul]; norm_num
      rw [show (-(8 : ℝ) ^ 2) = -64 by norm_num, Real.exp_neg, zpow_neg]
      exact inv_anti₀ (by positivity) (by exact_mod_cast h3)
    have := mul_left R (show (0 : ℝ) < 1 / 2 by norm_num) (le_trans' (L.erfc_anti _ _ e8) h8)
    refine le_trans' this ?_
    rw [mul_fin, ← dbl_two (j := -60) (by norm_num) (by norm_num)]
    exact R.mono _ _ (by have := two_zpow_pos (-60); linarith)
  have n8 : ∀ s : ℝ, s ≤ 1 → ¬ doubleMachine.mul x (fin c) < fin s ∧ fin s < doubleMachine.mul x (fin c) := by
    intro s hs
    revert e8
    cases doubleMachine.mul x (fin c) with
    | nan => exact fun h => absurd h id
    | ninf => exact fun h => absurd h id
    | pinf => exact fun _ => ⟨id, trivial⟩
    | fin y =>
      intro h
      have h : (8 : ℝ) ≤ y := h
      exact ⟨by rw [fin_lt]; linarith, by rw [fin_lt]; linarith⟩
  simp only [Phi]
  rw [es, es', if_neg (n8 s' hs').1, if_pos (n8 s hs).2]
  obtain ⟨d, ed, d0, -⟩ := between er.1 er.2
  rw [ed] at eu ⊢
  rw [one_def, sub_fin]
  exact dbl_near_one d0 eu

/-- Far in the tail all probabilities are 1. -/
theorem truncated_tail {inv : XR → XR} (hi : inv (fin 1) = pinf) {c q d : ℝ} (hc : 0.7 ≤ c) (hc' : c ≤ 1) (hq : 0 < q) (hq' : q ≤ 1) {a b : ℝ}
    (ha : 12 ≤ a) (hab : a ≤ b) :
    (∀ u : ℝ, (truncatedNormal doubleMachine inv c q d 0 1 (fin a) (fin b)).draw (fin u) = pinf) ∧
    (∀ x : ℝ, a ≤ x → (truncatedNormal doubleMachine inv c q d 0 1 (fin a) (fin b)).cdf (fin x) = nan) := by
  have R := double_sound.rounding
  have st : ∀ x : ℝ, 12 ≤ x → fin 12 ≤ doubleMachine.div (doubleMachine.sub (fin x) 0) 1 := by
    intro x hx
    have r12 : doubleMachine.rnd 12 = fin 12 := by have := dbl_nat (n := 12) (by norm_num); norm_num at this; exact this
    have h1 : fin 12 ≤ doubleMachine.sub (fin x) 0 := by
      rw [zero_def, sub_fin, sub_zero, ← r12]; exact R.mono _ _ hx
    have := div_right R one_pos h1
    rwa [div_fin _ one_ne_zero, div_one, r12, ← one_def] at this
  have eA : truncPhiA doubleMachine c q 0 1 (fin a) = fin 1 := by
    rw [truncPhiA, if_pos (show ninf < fin a from trivial)]; exact Phi_one hc hq hq' hc' (st a ha)
  have eB : truncPhiB doubleMachine c q 0 1 (fin b) = fin 1 := by
    rw [truncPhiB, if_pos (show fin b < pinf from trivial)]; exact Phi_one hc hq hq' hc' (st b (ha.trans hab))
  have e0 : doubleMachine.sub (fin 1) (fin 1) = fin 0 := by rw [sub_fin, sub_self, R.zero]
  constructor
  · intro u
    simp only [truncatedNormal, truncatedNormalIcdf]
    rw [eA, eB, e0, mul_fin, mul_zero, R.zero, add_fin, zero_add, R.one, hi, one_def, zero_def]
    show doubleMachine.add (doubleMachine.round (infSign 1)) (fin 0) = pinf
    rw [infSign_pos one_pos]; rfl
  · intro x hx
    simp only [truncatedNormal]
    rw [eA, eB, Phi_one hc hq hq' hc' (st x (ha.trans hx)), e0]
    show doubleMachine.round (fin 0 / fin 0) = nan
    rw [fin_div', if_pos rfl, infSign, if_neg (lt_irrefl _), if_neg (lt_irrefl _)]; rfl

end Rounded
end Trng
