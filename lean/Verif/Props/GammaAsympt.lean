import Verif.Props.GammaFun
import Verif.Proofs.GammaAsymptStop

/-! Property C93: the incomplete Gamma functions in their centre. -/
namespace Trng.Props
open XR Special Set Temme

/-! ### C93 -/

/-- One of the coefficients of the correction vanishes for this parameter. -/
def Vanishing (L : Limits) (a : ℝ) : Prop := ∃ b ∈ asymptBeta L (fin a), b = 0

theorem central_eq {L : Limits} {a x : ℝ} (hc : Central L a x) :
    gammaP L (gammaPAsympt L) true (fin a) (fin x) = gammaPAsympt L (fin a) (fin x) ∧
      gammaQ L (gammaQAsympt L) true (fin a) (fin x) = gammaQAsympt L (fin a) (fin x) := by
  have ha : 0 < a := lt_of_le_of_lt (Nat.cast_nonneg _) hc.1
  have hx : 0 < x := by have := hc.2.1; linarith
  have hd : ¬(fin x < 0 ∨ fin a ≤ 0) := by
    simp only [ofNat_fin, fin_lt, fin_le, Nat.cast_zero]; push Not; exact ⟨hx.le, ha⟩
  have e3 : (3 / 10 : XR) = fin (3 / 10) := by simp only [ofNat_fin, Nat.cast_ofNat]; exact fin_div (by norm_num)
  have e4 : (235 / 100 : XR) = fin (235 / 100) := by simp only [ofNat_fin, Nat.cast_ofNat]; exact fin_div (by norm_num)
  have hc' : fin L.digits10 < fin a ∧ 3 / 10 * fin a < fin x ∧ fin x < 235 / 100 * fin a := by
    rw [e3, e4]; simp only [fin_mul, fin_lt]; exact hc
  constructor
  · rw [gammaP, if_neg hd, if_pos rfl, if_pos hc']
  · rw [gammaQ, if_neg hd, if_pos rfl, if_pos hc']

theorem centre_aux {L : Limits} (hL : L = .float ∨ L = .double ∨ L = .longDouble) {a x : ℝ} (hc : Central L a x) :
    ∃ q : ℝ, gammaQ L (gammaQAsympt L) true (fin a) (fin x) = fin q ∧ gammaP L (gammaPAsympt L) true (fin a) (fin x) = fin (1 - q) ∧
      |q - (1 - Spec.regGamma a x)| ≤ 1024 * L.epsilon ∧
      (¬Vanishing L a → |q - (1 - Spec.regGamma a x)| ≤ 2 * L.epsilon ∧
        (a / 32 ≤ |x - a| → (x < a → |1 - q - Spec.regGamma a x| ≤ 4096 * L.epsilon * Spec.regGamma a x) ∧
          (a < x → |q - (1 - Spec.regGamma a x)| ≤ 4096 * L.epsilon * (1 - Spec.regGamma a x)))) := by
  have ha : a ≠ 0 := (lt_of_le_of_lt (Nat.cast_nonneg _) hc.1).ne'
  rw [(central_eq hc).1, (central_eq hc).2]
  have key : ∀ {n : ℕ} {bad : List ℕ}, TData L n bad → 3 ≤ L.digits → 32⁻¹ ^ (L.digits - 2) ≤ L.epsilon → _ := fun hD h1 h2 => asympt_error hD h1 h2 hc.1.le hc.2.1 hc.2.2
  have fin' : ∀ {n : ℕ} {bad : List ℕ}, TData L n bad → ¬Vanishing L a → ∀ i < n, (Bn a n).getD i 0 ≠ 0 := by
    intro n bad hD hv
    refine getD_ne_of hD.two ?_
    rw [← hD.len, ← mem_asymptBeta ha (hD.len ▸ hD.two) (hD.len ▸ hD.fifty)]
    exact hv
  rcases hL with rfl | rfl | rfl
  · obtain ⟨q, h1, h2, h3, h4⟩ := key data_float (by norm_num [Limits.float]) (by norm_num [Limits.float])
    exact ⟨q, h1, h2, h3, fun hv => h4 (fin' data_float hv)⟩
  · obtain ⟨q, h1, h2, h3, h4⟩ := key data_double (by norm_num [Limits.double]) (by norm_num [Limits.double])
    exact ⟨q, h1, h2, h3, fun hv => h4 (fin' data_double hv)⟩
  · obtain ⟨q, h1, h2, h3, h4⟩ := key data_long (by norm_num [Limits.longDouble]) (by norm_num [Limits.longDouble])
    exact ⟨q, h1, h2, h3, fun hv => h4 (fin' data_long hv)⟩

/-- C93: for every `a > digits10` and `0.3 a < x < 2.35 a`, however large, `GammaP(a, x)` and `GammaQ(a, x)` are numbers that add up
to one, and the error of both is at most `1024 ε`; `ε` is the machine epsilon. -/
theorem C93_absolute {L : Limits} (hL : L = .float ∨ L = .double ∨ L = .longDouble) {a x : ℝ} (hc : Central L a x) :
    ∃ p q : ℝ, gammaP L (gammaPAsympt L) true (fin a) (fin x) = fin p ∧ gammaQ L (gammaQAsympt L) true (fin a) (fin x) = fin q ∧
      p + q = 1 ∧ |p - Spec.regGamma a x| ≤ 1024 * L.epsilon ∧ |q - (1 - Spec.regGamma a x)| ≤ 1024 * L.epsilon := by
  obtain ⟨q, h1, h2, h3, -⟩ := centre_aux hL hc
  refine ⟨1 - q, q, h2, h1, by ring, ?_, h3⟩
  rw [← abs_neg]
  exact le_trans (le_of_eq (by congr 1; ring)) h3

/-- C93: the error is at most `2 ε`, unless `a` is one of the exceptions of `C93_exceptions`.  Missing: the exceptions, see
`C93_exception_wrong`. -/
theorem C93_sharp_partial {L : Limits} (hL : L = .float ∨ L = .double ∨ L = .longDouble) {a x : ℝ} (hc : Central L a x) (hv : ¬Vanishing L a) :
    ∃ p q : ℝ, gammaP L (gammaPAsympt L) true (fin a) (fin x) = fin p ∧ gammaQ L (gammaQAsympt L) true (fin a) (fin x) = fin q ∧
      |p - Spec.regGamma a x| ≤ 2 * L.epsilon ∧ |q - (1 - Spec.regGamma a x)| ≤ 2 * L.epsilon := by
  obtain ⟨q, h1, h2, -, h3⟩ := centre_aux hL hc
  have h3 := (h3 hv).1
  refine ⟨1 - q, q, h2, h1, ?_, h3⟩
  rw [← abs_neg]
  exact le_trans (le_of_eq (by congr 1; ring)) h3

/-- C93: where `x` differs from `a` by `a/32` or more, the smaller of the two values has a relative error of at most `4096 ε`,
however small it is, unless `a` is an exception.  Missing: the exceptions, and relative errors close to `a`, where the logarithm is
a series with a relative error of its own. -/
theorem C93_relative_partial {L : Limits} (hL : L = .float ∨ L = .double ∨ L = .longDouble) {a x : ℝ} (hc : Central L a x) (hv : ¬Vanishing L a)
    (hx : a / 32 ≤ |x - a|) :
    ∃ p q : ℝ, gammaP L (gammaPAsympt L) true (fin a) (fin x) = fin p ∧ gammaQ L (gammaQAsympt L) true (fin a) (fin x) = fin q ∧
      (x < a → |p - Spec.regGamma a x| ≤ 4096 * L.epsilon * Spec.regGamma a x) ∧
      (a < x → |q - (1 - Spec.regGamma a x)| ≤ 4096 * L.epsilon * (1 - Spec.regGamma a x)) := by
  obtain ⟨q, h1, h2, -, h3⟩ := centre_aux hL hc
  exact ⟨1 - q, q, h2, h1, (h3 hv).2 hx⟩

/-- C93: there are finitely many exceptions, none for `float`, none above 40 for `double`, none above 55 for `long double`. -/
theorem C93_exceptions : (∀ a : ℝ, 6 ≤ a → ¬Vanishing .float a) ∧ (∀ a : ℝ, 40 ≤ a → ¬Vanishing .double a) ∧
    (∀ a : ℝ, 55 ≤ a → ¬Vanishing .longDouble a) ∧ {a : ℝ | 0 < a ∧ Vanishing .double a}.Finite ∧ {a : ℝ | 0 < a ∧ Vanishing .longDouble a}.Finite := by
  refine ⟨fun a ha => ?_, fun a ha => ?_, fun a ha => ?_, ?_, ?_⟩
  · rw [Vanishing, mem_asymptBeta (by linarith) (by rw [len_float]; norm_num) (by rw [len_float]; norm_num), len_float]
    exact not_vanishing_float ha
  · rw [Vanishing, mem_asymptBeta (by linarith) (by rw [len_double]; norm_num) (by rw [len_double]; norm_num), len_double]
    exact not_vanishing_double ha
  · rw [Vanishing, mem_asymptBeta (by linarith) (by rw [len_long]; norm_num) (by rw [len_long]; norm_num), len_long]
    exact not_vanishing_long ha
  · refine (vanishing_finite (n := 26) (by norm_num) (by norm_num)).subset fun a ⟨h0, h⟩ => ?_
    rw [Vanishing, mem_asymptBeta h0.ne' (by rw [len_double]; norm_num) (by rw [len_double]; norm_num), len_double] at h
    exact h
  · refine (vanishing_finite (n := 31) (by norm_num) (by norm_num)).subset fun a ⟨h0, h⟩ => ?_
    rw [Vanishing, mem_asymptBeta h0.ne' (by rw [len_long]; norm_num) (by rw [len_long]; norm_num), len_long] at h
    exact h

/-- C93 does not hold without exceptions: for one `a` close to 16.178 the loop over the coefficients ends at one that vanishes,
although the next ones do not, and the error of `GammaQ` is above `5 ε` at `x = a/e`. -/
theorem C93_exception_wrong : ∃ a x q : ℝ, Central .double a x ∧ gammaQ .double (gammaQAsympt .double) true (fin a) (fin x) = fin q ∧
    5 * Limits.double.epsilon < |q - (1 - Spec.regGamma a x)| := by
  obtain ⟨a, h1, h2, q, hq, h⟩ := early_stop
  have h3 : 36 / 100 ≤ Real.exp (-1) := by
    rw [Real.exp_neg, le_inv_comm₀ (by norm_num) (Real.exp_pos _)]
    have := Real.exp_one_lt_d9; norm_num at this ⊢; linarith
  have h4 : Real.exp (-1) ≤ 1 := Real.exp_le_one_iff.2 (by norm_num)
  have hc : Central .double a (a * Real.exp (-1)) := ⟨by norm_num [Limits.double]; linarith, by nlinarith, by nlinarith⟩
  exact ⟨a, a * Real.exp (-1), q, hc, by rw [(central_eq hc).2, hq], h⟩

open PowerSeries in
/-- C93: the literals of the table are the coefficients of the power series of `s ↦ s/μ(s)` with a relative error of at most
10⁻³⁶, where `μ(s) − ln(1 + μ(s)) = s²/2`, that is, `μ = s + …` and `μ′ μ = s (1 + μ)`. -/
theorem C93_literals {f μ : PowerSeries ℚ} (h0 : constantCoeff μ = 0) (h1 : coeff 1 μ = 1) (hf : f * μ = X) (hd : d⁄dX ℚ μ * μ = X * (1 + μ)) :
    asymptCoeffs.length = 50 ∧ ∀ i < 50, |asymptCoeffs.getD i 0 - coeff i f| ≤ |coeff i f| / 10 ^ 36 := by
  refine ⟨rfl, fun i hi => ?_⟩
  have h := literals_check i hi
  rwa [series_unique h0 h1 hf hd 49 i (by omega)] at h

open PowerSeries in
/-- There is such a power series. -/
example : ∃ f μ : PowerSeries ℚ, constantCoeff μ = 0 ∧ coeff 1 μ = 1 ∧ f * μ = X ∧ d⁄dX ℚ μ * μ = X * (1 + μ) := series_exists

/-- The hypotheses are met by `GammaP(10⁶, 9 × 10⁵)`, a tiny probability, by `GammaQ(40., 50.)` and by `GammaP(7.f, 7.f)`. -/
example : Central .double (10 ^ 6) (9 * 10 ^ 5) ∧ ¬Vanishing .double (10 ^ 6) ∧ (10 ^ 6 / 32 : ℝ) ≤ |9 * 10 ^ 5 - 10 ^ 6| ∧
    Central .double 40 50 ∧ ¬Vanishing .double 40 ∧ (40 / 32 : ℝ) ≤ |50 - 40| ∧ Central .float 7 7 ∧ ¬Vanishing .float 7 := by
  refine ⟨⟨by norm_num [Limits.double], by norm_num, by norm_num⟩, C93_exceptions.2.1 _ (by norm_num), by norm_num [abs_of_neg],
    ⟨by norm_num [Limits.double], by norm_num, by norm_num⟩, C93_exceptions.2.1 _ le_rfl, by norm_num,
    ⟨by norm_num [Limits.float], by norm_num, by norm_num⟩, C93_exceptions.1 _ (by norm_num)⟩

/-- An exception exists, so `C93_absolute` says more than the others. -/
example : ∃ a x : ℝ, Central .double a x ∧ Vanishing .double a := by
  obtain ⟨a, h1, h2, h⟩ := exists_zero
  refine ⟨a, a, ⟨by norm_num [Limits.double]; linarith, by linarith, by linarith⟩, ?_⟩
  rw [Vanishing, mem_asymptBeta (by linarith) (by rw [len_double]; norm_num) (by rw [len_double]; norm_num), len_double]
  have hl : (Bn a 26).length = 26 := by rw [Bn, betaG_length]; simp
  refine ⟨(Bn a 26).getD 15 0, ?_, h⟩
  rw [List.getD_eq_getElem?_getD, List.getElem?_eq_getElem (by rw [hl]; norm_num)]
  exact List.getElem_mem _

end Trng.Props
