import Verif.Proofs.RoundedMono

/-! Properties C96 and C97: the continuous distributions in floating-point arithmetic. -/
namespace Trng.Props
open XR Spec Rounded

/-! ### What is assumed of the arithmetic holds of the usual types -/

/-- C96: `float`, `double` and x86's `long double`, rounding to nearest and with correctly rounded functions, are among the
machines of the theorems below. -/
theorem C96_machines : Sound floatMachine ∧ Sound doubleMachine ∧ Sound longDoubleMachine := ⟨float_sound, double_sound, longDouble_sound⟩

/-- C96: with exact arithmetic the model of this property is the model on exact reals, of which C59-C63 and C73-C82 speak. -/
theorem C96_exact :
    (∀ mu, exponential .exact mu = exponentialDist mu) ∧ (∀ mu, twosidedExponential .exact mu = twosidedExponentialDist mu) ∧
    (∀ m d, tent .exact m d = tentDist m d) ∧ (∀ g t, pareto .exact g t = paretoDist g t) ∧ (∀ g t, powerlaw .exact g t = powerlawDist g t) ∧
    (∀ t b, weibull .exact t b = weibullDist t b) ∧ (∀ t e, logistic .exact t e = logisticDist t e) ∧
    (∀ t e, extremeValue .exact t e = extremeValueDist t e) ∧ (∀ nu, rayleigh .exact nu = rayleighDist nu) ∧
    (∀ t e, cauchy .exact Real.pi (1 / Real.pi) t e = cauchyDist t e) ∧
    (∀ inv m s a b, truncatedNormal .exact inv (1 / Real.sqrt 2) 0.6744897501960817 (1 / Real.sqrt (2 * Real.pi)) m s a b = truncatedNormalDist inv m s a b) ∧
    (∀ inv m s, normalCdf .exact (1 / Real.sqrt 2) 0.6744897501960817 m s = (normalDist inv m s).cdf) ∧
    (∀ inv m s, lognormalCdf .exact (1 / Real.sqrt 2) m s = (lognormalDist inv m s).cdf) ∧
    (Rounded.maxwellPdf .exact (Real.sqrt (2 / Real.pi)) = Trng.maxwellPdf) ∧
    (∀ GP inv nu, chiSquarePdf .exact nu = (chiSquareDist GP inv nu).pdf) := by
  obtain ⟨a, b, c, d, e, f, g, h, i⟩ := exact_eq
  exact ⟨a, b, c, d, e, f, g, h, i, exact_eq'⟩

/-- The numbers the examples use are `double`s. -/
theorem rep_three : doubleMachine.Rep 3 := by
  have := dbl_nat (n := 3) (by norm_num)
  norm_num at this; exact this

theorem rep_pi : doubleMachine.Rep piDouble := by
  have := dbl_dyadic (n := 7074237752028440) (e := -51) (by norm_num) (by norm_num) (by norm_num)
  show doubleMachine.rnd (7074237752028440 * 2 ^ (-51 : ℤ)) = fin (7074237752028440 * 2 ^ (-51 : ℤ))
  norm_num at this ⊢; exact this

/-! ### C96: samples and `icdf` -/

variable {M : Machine}

/-- C96, exponential_dist: in every floating-point arithmetic a sample is a number in [min, max] (not NaN), samples are a monotone
function of the deviate, and so is `icdf` on (0,1), with values in [min, max]. -/
theorem C96_exponential (S : Sound M) {mu : ℝ} (hm : 0 < mu) :
    SamplesInRange M (exponential M (fin mu)) ∧ SamplesDecrease M (exponential M (fin mu)) ∧ IcdfInRange M (exponential M (fin mu)) :=
  exponential_samples S hm

example : SamplesInRange doubleMachine (exponential doubleMachine (fin 3)) := (C96_exponential double_sound (by norm_num)).1

/-- C96, twosided_exponential_dist. -/
theorem C96_twosided (S : Sound M) {mu : ℝ} (hm : 0 < mu) :
    SamplesInRange M (twosidedExponential M (fin mu)) ∧ SamplesIncrease M (twosidedExponential M (fin mu)) ∧
      IcdfInRange M (twosidedExponential M (fin mu)) := twosided_samples S hm

example : SamplesInRange floatMachine (twosidedExponential floatMachine (fin 3)) := (C96_twosided float_sound (by norm_num)).1

/-- C96, tent_dist: the width is a number of the type, as the parameter of a call is. -/
theorem C96_tent (S : Sound M) {m d : ℝ} (hd : 0 < d) (rd : M.Rep d) :
    SamplesInRange M (tent M (fin m) (fin d)) ∧ SamplesIncrease M (tent M (fin m) (fin d)) ∧ IcdfInRange M (tent M (fin m) (fin d)) :=
  tent_samples S hd rd

example : SamplesInRange doubleMachine (tent doubleMachine (fin 3) (fin 3)) := (C96_tent double_sound (by norm_num) rep_three).1

/-- C96, pareto_dist. -/
theorem C96_pareto (S : Sound M) {gamma theta : ℝ} (hg : 0 < gamma) (ht : 0 < theta) :
    SamplesInRange M (pareto M (fin gamma) (fin theta)) ∧ SamplesDecrease M (pareto M (fin gamma) (fin theta)) ∧
      IcdfInRange M (pareto M (fin gamma) (fin theta)) := pareto_samples S hg ht

example : SamplesInRange doubleMachine (pareto doubleMachine (fin 3) (fin 3)) := (C96_pareto double_sound (by norm_num) (by norm_num)).1

/-- C96, powerlaw_dist. -/
theorem C96_powerlaw (S : Sound M) {gamma theta : ℝ} (hg : 0 < gamma) (ht : 0 < theta) (rt : M.Rep theta) :
    SamplesInRange M (powerlaw M (fin gamma) (fin theta)) ∧ SamplesDecrease M (powerlaw M (fin gamma) (fin theta)) ∧
      IcdfInRange M (powerlaw M (fin gamma) (fin theta)) := powerlaw_samples S hg ht rt

example : SamplesInRange doubleMachine (powerlaw doubleMachine (fin 3) (fin 3)) :=
  (C96_powerlaw double_sound (by norm_num) (by norm_num) rep_three).1

/-- C96, weibull_dist. -/
theorem C96_weibull (S : Sound M) {theta beta : ℝ} (ht : 0 < theta) (hb : 0 < beta) :
    SamplesInRange M (weibull M (fin theta) (fin beta)) ∧ SamplesDecrease M (weibull M (fin theta) (fin beta)) ∧
      IcdfInRange M (weibull M (fin theta) (fin beta)) := weibull_samples S ht hb

example : SamplesInRange doubleMachine (weibull doubleMachine (fin 3) (fin 3)) := (C96_weibull double_sound (by norm_num) (by norm_num)).1

/-- C96, logistic_dist. -/
theorem C96_logistic (S : Sound M) {theta eta : ℝ} (ht : 0 < theta) :
    SamplesInRange M (logistic M (fin theta) (fin eta)) ∧ SamplesIncrease M (logistic M (fin theta) (fin eta)) ∧
      IcdfInRange M (logistic M (fin theta) (fin eta)) := logistic_samples S ht

example : SamplesInRange longDoubleMachine (logistic longDoubleMachine (fin 3) (fin 7)) := (C96_logistic longDouble_sound (by norm_num)).1

/-- C96, extreme_value_dist. -/
theorem C96_extreme_value (S : Sound M) {theta eta : ℝ} (ht : 0 < theta) :
    SamplesInRange M (extremeValue M (fin theta) (fin eta)) ∧ SamplesDecrease M (extremeValue M (fin theta) (fin eta)) ∧
      IcdfInRange M (extremeValue M (fin theta) (fin eta)) := extreme_samples S ht

example : SamplesInRange doubleMachine (extremeValue doubleMachine (fin 3) (fin 7)) := (C96_extreme_value double_sound (by norm_num)).1

/-- C96, rayleigh_dist. -/
theorem C96_rayleigh (S : Sound M) {nu : ℝ} (hn : 0 < nu) :
    SamplesInRange M (rayleigh M (fin nu)) ∧ SamplesIncrease M (rayleigh M (fin nu)) ∧ IcdfInRange M (rayleigh M (fin nu)) :=
  rayleigh_samples S hn

example : SamplesInRange doubleMachine (rayleigh doubleMachine (fin 3)) := (C96_rayleigh double_sound (by norm_num)).1

/-- C96, cauchy_dist: samples are never NaN.  Missing: that samples do not decrease with the deviate, which needs more of `sin` and
`cos` than the assumptions on the library give; see C96_cauchy_increases. -/
theorem C96_cauchy_partial (S : Sound M) {pi c theta eta : ℝ} (hp : 0 < pi) (rp : M.Rep pi) (ht : 0 < theta) (rt : M.Rep theta) :
    SamplesInRange M (cauchy M pi c (fin theta) (fin eta)) :=
  fun u hu _ => cauchy_icdf S hp rp ht rt hu.1.le hu.2.le

example : SamplesInRange doubleMachine (cauchy doubleMachine piDouble oneOverPiDouble (fin 3) (fin 7)) :=
  C96_cauchy_partial double_sound (by norm_num [piDouble]) rep_pi (by norm_num) rep_three

/-- C96, cauchy_dist: samples do not decrease with the deviate if sine and cosine of the library are monotone where the true functions are,
up to a bound on the products of deviates and the constant π. -/
theorem C96_cauchy_increases (S : Sound M) {p pi c theta eta : ℝ} (T : TrigMono M p) (hp : 0 < pi) (rp : M.Rep pi) (ht : 0 < theta) (rt : M.Rep theta)
    (hb : ∀ u : ℝ, u < 1 → M.Rep u → M.mul (fin u) (fin pi) ≤ fin p) :
    SamplesIncrease M (cauchy M pi c (fin theta) (fin eta)) ∧ IcdfInRange M (cauchy M pi c (fin theta) (fin eta)) := by
  have e : ∀ x : ℝ, 0 < x → x < 1 → (cauchy M pi c (fin theta) (fin eta)).icdf (fin x) = Rounded.cauchyIcdf M pi (fin theta) (fin eta) (fin x) := by
    intro x h0 h1
    simp only [cauchy]
    rw [if_neg (by rw [zero_def, one_def, fin_le, fin_le]; push Not; exact ⟨h0, h1⟩), if_neg, if_neg]
    · rw [one_def]; simp only [XR.eq]; exact h1.ne
    · rw [zero_def]; simp only [XR.eq]; exact h0.ne'
  refine ⟨fun u hu v hv _ rv h => cauchy_mono S T hp rp ht rt hu.1.le h hv.2.le (hb v hv.2 rv), fun x h0 h1 _ => ?_, fun x y h0 h h1 _ ry => ?_⟩
  · rw [e x h0 h1]; exact cauchy_icdf S hp rp ht rt h0.le h1.le
  · rw [e x h0 (h.trans_lt h1), e y (h0.trans_le h) h1]
    exact cauchy_mono S T hp rp ht rt h0.le h h1.le (hb y h1 ry)

/-- C96, cauchy_dist<double> with a correctly rounded library. -/
theorem C96_cauchy_double {theta eta : ℝ} (ht : 0 < theta) (rt : doubleMachine.Rep theta) :
    SamplesInRange doubleMachine (cauchy doubleMachine piDouble oneOverPiDouble (fin theta) (fin eta)) ∧
    SamplesIncrease doubleMachine (cauchy doubleMachine piDouble oneOverPiDouble (fin theta) (fin eta)) ∧
    IcdfInRange doubleMachine (cauchy doubleMachine piDouble oneOverPiDouble (fin theta) (fin eta)) := by
  have hp : 0 < piDouble := by norm_num [piDouble]
  refine ⟨C96_cauchy_partial double_sound hp rep_pi ht rt, C96_cauchy_increases double_sound (p := piDouble)
    (trig_rounded double_sound.rounding (by have := Real.pi_gt_d20; norm_num [piDouble]; linarith)) hp rep_pi ht rt fun u hu _ => ?_⟩
  rw [Machine.mul_fin, ← show doubleMachine.rnd piDouble = fin piDouble from rep_pi]
  exact double_sound.rounding.mono _ _ (by nlinarith)

example : SamplesIncrease doubleMachine (cauchy doubleMachine piDouble oneOverPiDouble (fin 3) (fin 7)) :=
  (C96_cauchy_double (by norm_num) rep_three).2.1

/-- C96 fails for truncated_normal_dist: with both ends in the upper tail every sample of the `double` version is infinite, whatever
the deviate, as long as `inv_Phi(1)` is infinite; and then `cdf` is NaN. -/
theorem C96_truncated_normal_wrong {inv : XR → XR} (hi : inv (fin 1) = pinf) {d a b : ℝ} (ha : 12 ≤ a) (hab : a < b) :
    (∀ u : ℝ, 0 < u → u < 1 → (truncatedNormal doubleMachine inv oneOverSqrt2Double quartileDouble d 0 1 (fin a) (fin b)).draw (fin u) = pinf) ∧
    ¬ SamplesInRange doubleMachine (truncatedNormal doubleMachine inv oneOverSqrt2Double quartileDouble d 0 1 (fin a) (fin b)) ∧
    (∀ x : ℝ, a ≤ x → (truncatedNormal doubleMachine inv oneOverSqrt2Double quartileDouble d 0 1 (fin a) (fin b)).cdf (fin x) = nan) := by
  obtain ⟨h1, h2⟩ := truncated_tail (inv := inv) (d := d) (c := oneOverSqrt2Double) (q := quartileDouble) hi (by norm_num [oneOverSqrt2Double])
    (by norm_num [oneOverSqrt2Double]) (by norm_num [quartileDouble]) (by norm_num [quartileDouble]) ha hab.le
  refine ⟨fun u _ _ => h1 u, fun h => ?_, h2⟩
  have := (h (1 / 2) ⟨by norm_num, by norm_num⟩ double_sound.rounding.half).2
  rw [h1] at this
  exact this

example : invPhi true (fin 1) = pinf ∧ (12 : ℝ) < 13 := by
  refine ⟨?_, by norm_num⟩
  have h : invPhiApprox (fin 1) = pinf := by
    rw [invPhiApprox, zero_def, one_def, if_neg (by rw [fin_lt, fin_lt]; norm_num), if_neg (by rw [fin_eq]; norm_num), if_pos ((fin_eq _ _).2 rfl)]
  simp only [invPhi, refine, h, isFinite, if_false, and_false]

/-! ### C97: distribution functions and densities -/

/-- C97, exponential_dist: in every floating-point arithmetic `cdf` of any number (infinities included) is a number in [0,1], and
does not decrease; the density is a number and not negative. -/
theorem C97_exponential (S : Sound M) {mu : ℝ} (hm : 0 < mu) :
    CdfInRange M (exponential M (fin mu)).cdf ∧ CdfIncreases M (exponential M (fin mu)).cdf ∧ PdfNonneg M (exponential M (fin mu)).pdf :=
  ⟨(exponential_cdf S hm).1, (exponential_cdf S hm).2, exponential_pdf S hm⟩

example : CdfInRange doubleMachine (exponential doubleMachine (fin 3)).cdf := (C97_exponential double_sound (by norm_num)).1

/-- C97, twosided_exponential_dist. -/
theorem C97_twosided (S : Sound M) {mu : ℝ} (hm : 0 < mu) (rm : M.Rep mu) :
    CdfInRange M (twosidedExponential M (fin mu)).cdf ∧ CdfIncreases M (twosidedExponential M (fin mu)).cdf ∧
      PdfNonneg M (twosidedExponential M (fin mu)).pdf := ⟨(twosided_cdf S hm).1, (twosided_cdf S hm).2, twosided_pdf S hm rm⟩

example : CdfInRange doubleMachine (twosidedExponential doubleMachine (fin 3)).cdf := (C97_twosided double_sound (by norm_num) rep_three).1

/-- C97, pareto_dist. -/
theorem C97_pareto (S : Sound M) {gamma theta : ℝ} (hg : 0 < gamma) (ht : 0 < theta) :
    CdfInRange M (pareto M (fin gamma) (fin theta)).cdf ∧ CdfIncreases M (pareto M (fin gamma) (fin theta)).cdf := pareto_cdf S hg ht

example : CdfInRange doubleMachine (pareto doubleMachine (fin 3) (fin 3)).cdf := (C97_pareto double_sound (by norm_num) (by norm_num)).1

/-- C97, powerlaw_dist, from its smallest value `theta` on.  Missing: numbers below it, where the code is wrong (C61_powerlaw_wrong). -/
theorem C97_powerlaw_partial (S : Sound M) {gamma theta : ℝ} (hg : 0 < gamma) (ht : 0 < theta) :
    (∀ x, fin theta ≤ x → 0 ≤ (powerlaw M (fin gamma) (fin theta)).cdf x ∧ (powerlaw M (fin gamma) (fin theta)).cdf x ≤ 1) ∧
    (∀ x y, fin theta ≤ x → x ≤ y → (powerlaw M (fin gamma) (fin theta)).cdf x ≤ (powerlaw M (fin gamma) (fin theta)).cdf y) := by
  rw [zero_def, one_def]
  exact powerlaw_cdf' S hg ht

example : (0 : XR) ≤ (powerlaw doubleMachine (fin 3) (fin 3)).cdf (fin 4) :=
  ((C97_powerlaw_partial double_sound (by norm_num) (by norm_num)).1 _ ((fin_le _ _).2 (by norm_num))).1

/-- C97, weibull_dist, `cdf`. -/
theorem C97_weibull (S : Sound M) {theta beta : ℝ} (ht : 0 < theta) (hb : 0 < beta) :
    CdfInRange M (weibull M (fin theta) (fin beta)).cdf ∧ CdfIncreases M (weibull M (fin theta) (fin beta)).cdf := weibull_cdf S ht hb

example : CdfInRange doubleMachine (weibull doubleMachine (fin 3) (fin 3)).cdf := (C97_weibull double_sound (by norm_num) (by norm_num)).1

/-- C97 fails for the density of weibull_dist: `weibull_dist<double>(1, 2).pdf(2^600)` is NaN. -/
theorem C97_weibull_wrong : ¬ PdfNonneg doubleMachine (weibull doubleMachine 1 2).pdf := by
  intro h
  have := h (fin (2 ^ (600 : ℤ))) (Or.inr (Or.inr ⟨_, rfl, dbl_two (by norm_num) (by norm_num)⟩))
  rw [weibull_nan] at this
  exact this

/-- C97, extreme_value_dist. -/
theorem C97_extreme_value (S : Sound M) {theta eta : ℝ} (ht : 0 < theta) :
    CdfInRange M (extremeValue M (fin theta) (fin eta)).cdf ∧ CdfIncreases M (extremeValue M (fin theta) (fin eta)).cdf := extreme_cdf S ht

example : CdfInRange doubleMachine (extremeValue doubleMachine (fin 3) (fin 7)).cdf := (C97_extreme_value double_sound (by norm_num)).1

/-- C97, lognormal_dist. -/
theorem C97_lognormal (S : Sound M) {c mu sigma : ℝ} (hc : 0 < c) (hs : 0 < sigma) :
    CdfInRange M (lognormalCdf M c (fin mu) (fin sigma)) ∧ CdfIncreases M (lognormalCdf M c (fin mu) (fin sigma)) := lognormal_cdf S hc hs

example : CdfInRange doubleMachine (lognormalCdf doubleMachine oneOverSqrt2Double (fin 3) (fin 3)) :=
  (C97_lognormal double_sound (by norm_num [oneOverSqrt2Double]) (by norm_num)).1

/-- C97, logistic_dist: range of `cdf` and sign of the density.  Missing: monotony of `cdf`, which fails (C97_logistic_wrong). -/
theorem C97_logistic_partial (S : Sound M) {theta eta : ℝ} (ht : 0 < theta) (rt : M.Rep theta) :
    CdfInRange M (logistic M (fin theta) (fin eta)).cdf ∧ PdfNonneg M (logistic M (fin theta) (fin eta)).pdf :=
  ⟨logistic_cdf S ht, logistic_pdf S ht rt⟩

example : CdfInRange doubleMachine (logistic doubleMachine (fin 3) (fin 7)).cdf := (C97_logistic_partial double_sound (by norm_num) rep_three).1

/-- C97 fails for logistic_dist: with a correctly rounded `exp`, `logistic_dist<double>(1, 0).cdf` decreases between two neighbouring
numbers near -0.8 (below `eta` a quotient of two increasing numbers is computed). -/
theorem C97_logistic_wrong : ¬ CdfIncreases doubleMachine (logistic doubleMachine 1 0).cdf := logistic_decreases

/-- C97, normal_dist: range of `cdf`.  Missing: monotony, which depends on how `erf` and `erfc` fit together at the joints of the three
branches of `Phi`; see C97_normal_increases and C97_normal_double. -/
theorem C97_normal_partial (S : Sound M) {c q mu sigma : ℝ} (hc : 0 < c) (hs : 0 < sigma) :
    CdfInRange M (normalCdf M c q (fin mu) (fin sigma)) := normal_cdf S hc hs

example : CdfInRange doubleMachine (normalCdf doubleMachine oneOverSqrt2Double quartileDouble (fin 3) (fin 3)) :=
  C97_normal_partial double_sound (by norm_num [oneOverSqrt2Double]) (by norm_num)

/-- C97, normal_dist: `cdf` does not decrease if it does not at the two joints (the arguments `a` and `b`), where the values come from
different functions of the library. -/
theorem C97_normal_increases (S : Sound M) {c q a b mu sigma : ℝ} (hc : 0 < c) (hs : 0 < sigma) (ea : M.mul (fin (-q)) (fin c) = fin a)
    (eb : M.mul (fin q) (fin c) = fin b) (hab : a ≤ b)
    (ja : M.mul (fin (1 / 2)) (M.erfc (fin (-a))) ≤ M.add (fin (1 / 2)) (M.mul (fin (1 / 2)) (M.erf (fin a))))
    (jb : M.add (fin (1 / 2)) (M.mul (fin (1 / 2)) (M.erf (fin b))) ≤ M.sub 1 (M.mul (fin (1 / 2)) (M.erfc (fin b)))) :
    CdfIncreases M (normalCdf M c q (fin mu) (fin sigma)) :=
  fun _ _ _ _ h => Phi_mono S hc ea eb hab ja jb (std_mono S.rounding hs h)

/-- C97, normal_dist<double> with a correctly rounded `erf` and `erfc`: `cdf` is a number in [0,1] and does not decrease. -/
theorem C97_normal_double {mu sigma : ℝ} (hs : 0 < sigma) :
    CdfInRange doubleMachine (normalCdf doubleMachine oneOverSqrt2Double quartileDouble (fin mu) (fin sigma)) ∧
    CdfIncreases doubleMachine (normalCdf doubleMachine oneOverSqrt2Double quartileDouble (fin mu) (fin sigma)) :=
  ⟨C97_normal_partial double_sound (by norm_num [oneOverSqrt2Double]) hs, fun _ _ _ _ h => Phi_mono_double (std_mono double_sound.rounding hs h)⟩

example : CdfIncreases doubleMachine (normalCdf doubleMachine oneOverSqrt2Double quartileDouble (fin 3) (fin 3)) := (C97_normal_double (by norm_num)).2

/-- C97, cauchy_dist: as long as the constant 1/π times the `atan`s of the infinities is at most 1/2, which holds for `double`. -/
theorem C97_cauchy (S : Sound M) {pi c theta eta : ℝ} (hc : 0 < c) (ht : 0 < theta)
    (h0 : fin (-(1 / 2)) ≤ M.mul (fin c) (M.atan ninf)) (h1 : M.mul (fin c) (M.atan pinf) ≤ fin (1 / 2)) :
    CdfInRange M (cauchy M pi c (fin theta) (fin eta)).cdf ∧ CdfIncreases M (cauchy M pi c (fin theta) (fin eta)).cdf :=
  cauchy_cdf S hc ht h0 h1

/-- C97, cauchy_dist<double>. -/
theorem C97_cauchy_double {theta eta : ℝ} (ht : 0 < theta) :
    CdfInRange doubleMachine (cauchy doubleMachine piDouble oneOverPiDouble (fin theta) (fin eta)).cdf ∧
    CdfIncreases doubleMachine (cauchy doubleMachine piDouble oneOverPiDouble (fin theta) (fin eta)).cdf := by
  refine C97_cauchy double_sound (by norm_num [oneOverPiDouble]) ht ?_ ?_
  · rw [cauchy_double.2]; exact (fin_le _ _).2 (le_refl _)
  · rw [cauchy_double.1]; exact (fin_le _ _).2 (le_refl _)

example : CdfInRange doubleMachine (cauchy doubleMachine piDouble oneOverPiDouble (fin 3) (fin 7)).cdf := (C97_cauchy_double (by norm_num)).1

/-- C97, rayleigh_dist, as long as `2 nu nu` neither overflows nor underflows. -/
theorem C97_rayleigh_partial (S : Sound M) {nu c : ℝ} (hc : 0 < c) (e : M.mul (M.mul 2 (fin nu)) (fin nu) = fin c) :
    CdfInRange M (rayleigh M (fin nu)).cdf ∧ CdfIncreases M (rayleigh M (fin nu)).cdf := rayleigh_cdf S hc e

/-- C97 fails for rayleigh_dist: for `nu = 2^-600` both `cdf(nu)` and `pdf(nu)` are NaN. -/
theorem C97_rayleigh_wrong : ¬ CdfInRange doubleMachine (rayleigh doubleMachine (fin (2 ^ (-600 : ℤ)))).cdf ∧
    ¬ PdfNonneg doubleMachine (rayleigh doubleMachine (fin (2 ^ (-600 : ℤ)))).pdf := by
  have v : Value doubleMachine (fin (2 ^ (-600 : ℤ))) := Or.inr (Or.inr ⟨_, rfl, dbl_two (by norm_num) (by norm_num)⟩)
  constructor
  · intro h
    have := (h _ v).1
    rw [rayleigh_nan.1] at this
    exact this
  · intro h
    have := h _ v
    rw [rayleigh_nan.2] at this
    exact this

/-- `2·3·3 = 18` in `double`s. -/
theorem two_three_three : doubleMachine.mul (doubleMachine.mul 2 (fin 3)) (fin 3) = fin 18 := by
  rw [two_def, Machine.mul_fin, show (2 * 3 : ℝ) = ((6 : ℕ) : ℝ) by norm_num, dbl_nat (by norm_num), Machine.mul_fin,
    show (((6 : ℕ) : ℝ) * 3 : ℝ) = ((18 : ℕ) : ℝ) by norm_num, dbl_nat (by norm_num)]
  norm_num

example : CdfInRange doubleMachine (rayleigh doubleMachine (fin 3)).cdf := (C97_rayleigh_partial double_sound (by norm_num) two_three_three).1

/-- C97, tent_dist, as long as `2 d d` neither overflows nor underflows: range of `cdf`, and sign of the density.  Missing: other widths,
where the code is wrong (C97_tent_wrong). -/
theorem C97_tent_partial (S : Sound M) {m d c : ℝ} (hd : 0 < d) (rd : M.Rep d) (hc : 0 < c) (e : M.mul (M.mul 2 (fin d)) (fin d) = fin c) :
    CdfInRange M (tent M (fin m) (fin d)).cdf ∧ PdfNonneg M (tent M (fin m) (fin d)).pdf := ⟨tent_cdf S hd rd hc e, tent_pdf S hd⟩

example : CdfInRange doubleMachine (tent doubleMachine (fin 7) (fin 3)).cdf :=
  (C97_tent_partial double_sound (by norm_num) rep_three (by norm_num) two_three_three).1

/-- C97, tent_dist: `cdf` does not decrease, as long as the first half of the numbers gets no more than 1/2. -/
theorem C97_tent_increases (S : Sound M) {m d c : ℝ} (hd : 0 < d) (rd : M.Rep d) (hc : 0 < c) (e : M.mul (M.mul 2 (fin d)) (fin d) = fin c)
    (hh : M.div (M.mul (fin d) (fin d)) (fin c) ≤ fin (1 / 2)) : CdfIncreases M (tent M (fin m) (fin d)).cdf := tent_mono S hd rd hc e hh

/-- C97, tent_dist<double> and rayleigh_dist<double> with a scale from 2⁻⁵⁰⁰ to 2⁵⁰⁰: `cdf` is a number in [0,1] and does not decrease. -/
theorem C97_moderate_double {d : ℝ} (rd : doubleMachine.Rep d) (h0 : 2 ^ (-500 : ℤ) ≤ d) (h1 : d ≤ 2 ^ (500 : ℤ)) :
    (∀ m : ℝ, CdfInRange doubleMachine (tent doubleMachine (fin m) (fin d)).cdf ∧ CdfIncreases doubleMachine (tent doubleMachine (fin m) (fin d)).cdf) ∧
    CdfInRange doubleMachine (rayleigh doubleMachine (fin d)).cdf ∧ CdfIncreases doubleMachine (rayleigh doubleMachine (fin d)).cdf := by
  obtain ⟨a, ha, e1, e2⟩ := moderate rd h0 h1
  have hd : 0 < d := (two_zpow_pos _).trans_le h0
  refine ⟨fun m => ⟨(C97_tent_partial double_sound hd rd (by linarith) e2).1, C97_tent_increases double_sound hd rd (by linarith) e2 ?_⟩,
    C97_rayleigh_partial double_sound (by linarith) e2⟩
  rw [e1, Machine.div_fin _ (by linarith), show a / (2 * a) = 1 / 2 by field_simp, double_sound.rounding.half]
  exact (fin_le _ _).2 (le_refl _)

example : CdfIncreases doubleMachine (tent doubleMachine (fin 7) (fin 3)).cdf :=
  ((C97_moderate_double rep_three (le_trans (zpow_le_one_of_nonpos₀ one_le_two (by norm_num)) (by norm_num))
    (le_trans (by norm_num) (zpow_le_zpow_right₀ one_le_two (show (2 : ℤ) ≤ 500 by norm_num)))).1 7).2

/-- C97 fails for tent_dist: `tent_dist<double>(0, 2^600).cdf(-2^599)` is NaN. -/
theorem C97_tent_wrong : ¬ CdfInRange doubleMachine (tent doubleMachine (fin 0) (fin (2 ^ (600 : ℤ)))).cdf := by
  intro h
  have := (h (fin (-(2 ^ (599 : ℤ)))) (Or.inr (Or.inr ⟨_, rfl, double_sound.rounding.neg _ (dbl_two (by norm_num) (by norm_num))⟩))).1
  rw [tent_cdf_nan] at this
  exact this

/-- C97 fails for maxwell_dist: `maxwell_dist<double>(1).pdf(2^600)` is NaN. -/
theorem C97_maxwell_wrong {c : ℝ} (hc : 0 < c) : ¬ PdfNonneg doubleMachine (Rounded.maxwellPdf doubleMachine c 1) := by
  intro h
  have := h (fin (2 ^ (600 : ℤ))) (Or.inr (Or.inr ⟨_, rfl, dbl_two (by norm_num) (by norm_num)⟩))
  rw [maxwell_nan hc] at this
  exact this

/-- C97 fails for chi_square_dist: with 1000 degrees of freedom the density at the mean, 1000, is NaN. -/
theorem C97_chi_square_wrong : ¬ PdfNonneg doubleMachine (chiSquarePdf doubleMachine 1000) := by
  intro h
  have := h (fin ((1000 : ℕ) : ℝ)) (Or.inr (Or.inr ⟨_, rfl, dbl_nat (by norm_num)⟩))
  rw [show fin ((1000 : ℕ) : ℝ) = (1000 : XR) by rw [ofNat_fin], chi_nan] at this
  exact this

/-- C97 fails for student_t_dist: for all degrees of freedom the argument of the incomplete Beta function in `cdf(2^600)` is NaN. -/
theorem C97_student_t_wrong (nu : ℤ) : studentArg doubleMachine nu (fin (2 ^ (600 : ℤ))) = nan := student_nan nu

end Trng.Props
