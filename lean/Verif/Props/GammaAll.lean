import Verif.Props.GammaAsympt
import Verif.Props.GammaDists
import Verif.Proofs.GammaAll

/-! Property C94: the incomplete Gamma functions of the library over their whole domain, and gamma_dist and chi_square_dist with them. -/
namespace Trng.Props
open XR Special Set MeasureTheory GammaDists InvGamma GammaSeries

/-! ### C94 -/

/-- The absolute error of `GammaP` and `GammaQ` in the format `L` is at most `d`: 1024 machine epsilons for `float`, 10⁻¹⁰ for `double`
and 10⁻¹¹ for `long double`. -/
def GammaError (L : Limits) (d : ℝ) : Prop :=
  (L = .float ∧ d = 1024 * Limits.float.epsilon) ∨ (L = .double ∧ d = 1 / 10 ^ 10) ∨ (L = .longDouble ∧ d = 1 / 10 ^ 11)

theorem GammaError.format {L : Limits} {d : ℝ} (h : GammaError L d) : L = .float ∨ L = .double ∨ L = .longDouble := by
  rcases h with ⟨h, -⟩ | ⟨h, -⟩ | ⟨h, -⟩ <;> simp [h]

theorem GammaError.eps {L : Limits} {d : ℝ} (h : GammaError L d) : 0 < L.epsilon ∧ 1024 * L.epsilon ≤ d ∧ L.epsilon ≤ 1 / 4096 ∧
    4 * L.epsilon * (L.digits10 + 1) ≤ d ∧ 1 ≤ L.digits10 := by
  rcases h with ⟨rfl, rfl⟩ | ⟨rfl, rfl⟩ | ⟨rfl, rfl⟩ <;> norm_num [Limits.float, Limits.double, Limits.longDouble]

/-- Below `4ε` the series is cut off. -/
theorem tiny_aux {L : Limits} (hL : L = .float ∨ L = .double ∨ L = .longDouble) {a x : ℝ} (ha : 0 < a) (hx : 0 ≤ x) (h4 : x < 4 * L.epsilon) :
    gammaQ L (gammaQAsympt L) true (fin a) (fin x) = fin 1 ∧ gammaP L (gammaPAsympt L) true (fin a) (fin x) = fin 0 := by
  have he : 4 * L.epsilon ≤ 3 / 10 ∧ 1 ≤ L.digits10 := by
    rcases hL with rfl | rfl | rfl <;> norm_num [Limits.float, Limits.double, Limits.longDouble]
  have hd : ¬(fin x < 0 ∨ fin a ≤ 0) := by
    simp only [ofNat_fin, fin_lt, fin_le, Nat.cast_zero]; push Not; exact ⟨hx, ha⟩
  have e3 : (3 / 10 : XR) = fin (3 / 10) := by simp only [ofNat_fin, Nat.cast_ofNat]; exact fin_div (by norm_num)
  have hc' : ¬(fin L.digits10 < fin a ∧ 3 / 10 * fin a < fin x ∧ fin x < 235 / 100 * fin a) := by
    rw [e3, fin_mul, fin_lt, fin_lt]
    rintro ⟨h1, h2, -⟩
    have : (1 : ℝ) ≤ L.digits10 := by exact_mod_cast he.2
    linarith [he.1]
  have hl : fin x < fin a + 1 := by rw [ofNat_fin, fin_add, fin_lt]; push_cast; linarith [he.1]
  have hs : gammaPSer L true (fin a) (fin x) = fin 0 := by
    rw [gammaPSer, if_pos]
    · simp
    · simp only [ofNat_fin, fin_mul, fin_lt, Nat.cast_ofNat]; exact h4
  constructor
  · rw [gammaQ, if_neg hd, if_pos rfl, if_neg hc', if_pos hl, hs, ofNat_fin, fin_sub]; norm_num
  · rw [gammaP, if_neg hd, if_pos rfl, if_neg hc', if_pos hl, hs]

/-- C94: for all `a > 0` and `x ≥ 0` both functions return numbers, which add up to 1. -/
theorem C94_total {L : Limits} (hL : L = .float ∨ L = .double ∨ L = .longDouble) {a x : ℝ} (ha : 0 < a) (hx : 0 ≤ x) :
    ∃ p q : ℝ, gammaP L (gammaPAsympt L) true (fin a) (fin x) = fin p ∧ gammaQ L (gammaQAsympt L) true (fin a) (fin x) = fin q ∧ p + q = 1 := by
  by_cases hc : Central L a x
  · obtain ⟨p, q, h1, h2, h3, -⟩ := C93_absolute hL hc
    exact ⟨p, q, h1, h2, h3⟩
  rcases lt_or_ge x (4 * L.epsilon) with h4 | h4
  · obtain ⟨h1, h2⟩ := tiny_aux hL ha hx h4
    exact ⟨0, 1, h2, h1, by norm_num⟩
  rcases lt_or_ge x (a + 1) with h | h
  · obtain ⟨y, h1, -, h3⟩ := C80_series_partial hL (gammaPAsympt L) ha h4 h hc
    obtain ⟨y', h1', h2', -⟩ := C80_series_partial hL (gammaQAsympt L) ha h4 h hc
    have e := (gammaP_asympt_irrelevant ha hx hc (gammaPAsympt L) (gammaQAsympt L)).symm.trans h1
    rw [h1'] at e
    obtain rfl := (fin_inj _ _).1 e
    exact ⟨_, _, h1, h2', by ring⟩
  · obtain ⟨κ, hκ⟩ : ∃ κ : ℝ, (L = .float ∧ κ = 7 * Limits.float.epsilon * (Limits.float.digits + 1)) ∨ (L = .double ∧ κ = 1 / 10 ^ 10) ∨ (L = .longDouble ∧ κ = 1 / 10 ^ 11) := by
      rcases hL with rfl | rfl | rfl
      exacts [⟨_, Or.inl ⟨rfl, rfl⟩⟩, ⟨_, Or.inr (Or.inl ⟨rfl, rfl⟩)⟩, ⟨_, Or.inr (Or.inr ⟨rfl, rfl⟩)⟩]
    obtain ⟨y, -, h2, -⟩ := C80_near_partial hκ (gammaPAsympt L) ha h hc
    obtain ⟨y', h1', h2', -⟩ := C80_near_partial hκ (gammaQAsympt L) ha h hc
    have e := (gammaP_asympt_irrelevant ha hx hc (gammaPAsympt L) (gammaQAsympt L)).symm.trans h2
    rw [h2'] at e
    have := (fin_inj _ _).1 e
    exact ⟨_, _, h2, h1', by linarith⟩

/-- C94: for all `a` and `x` both functions are correct up to the error `d`, for `a < 1` only if `x` is 0 or at least `4ε`.
Missing: smaller `x`, where it is false, see `C80_small_wrong`. -/
theorem C94_absolute_partial {L : Limits} {d : ℝ} (hd : GammaError L d) {a x : ℝ} (ha : 0 < a) (hx : 0 ≤ x) (h : 1 ≤ a ∨ x = 0 ∨ 4 * L.epsilon ≤ x) :
    ∃ p q : ℝ, gammaP L (gammaPAsympt L) true (fin a) (fin x) = fin p ∧ gammaQ L (gammaQAsympt L) true (fin a) (fin x) = fin q ∧ p + q = 1 ∧
      |p - Spec.regGamma a x| ≤ d ∧ |q - (1 - Spec.regGamma a x)| ≤ d := by
  have hL := hd.format
  obtain ⟨e0, e1, e2, e3, -⟩ := hd.eps
  obtain ⟨p, q, h1, h2, h3⟩ := C94_total hL ha hx
  refine ⟨p, q, h1, h2, h3, ?_⟩
  obtain rfl : p = 1 - q := by linarith
  have key : |q - (1 - Spec.regGamma a x)| ≤ d := by
    by_cases hc : Central L a x
    · obtain ⟨p', q', -, h2', -, -, h5⟩ := C93_absolute hL hc
      rw [h2] at h2'
      rw [(fin_inj _ _).1 h2']
      exact h5.trans e1
    rcases lt_or_ge x (4 * L.epsilon) with h4 | h4
    · obtain ⟨h1', h2'⟩ := tiny_aux hL ha hx h4
      rw [h1'] at h2
      rw [← (fin_inj _ _).1 h2, sub_sub_cancel, abs_of_nonneg (reg_nonneg ha hx)]
      rcases h with h | h | h
      · exact (GammaAll.reg_le h hx (by linarith)).trans (by linarith)
      · rw [h, reg_zero]; linarith
      · linarith
    rcases lt_or_ge x (a + 1) with h' | h'
    · obtain ⟨y, -, h2', h0, hy1, hy2⟩ := C80_series_partial hL (gammaQAsympt L) ha h4 h' hc
      rw [h2] at h2'
      rw [(fin_inj _ _).1 h2', show 1 - y - (1 - Spec.regGamma a x) = Spec.regGamma a x - y by ring, abs_of_nonneg (by linarith)]
      have h1 := reg_lt_one ha hx
      have : y * (4 * L.epsilon * (L.digits10 + 1)) ≤ 1 * (4 * L.epsilon * (L.digits10 + 1)) :=
        mul_le_mul_of_nonneg_right (by linarith) (by positivity)
      linarith
    · have hr := reg_nonneg ha hx
      have hr1 := reg_lt_one ha hx
      have hκ : ∃ κ : ℝ, ((L = .float ∧ κ = 7 * Limits.float.epsilon * (Limits.float.digits + 1)) ∨ (L = .double ∧ κ = 1 / 10 ^ 10) ∨ (L = .longDouble ∧ κ = 1 / 10 ^ 11)) ∧
          0 ≤ κ ∧ κ ≤ d := by
        rcases hd with ⟨rfl, rfl⟩ | ⟨rfl, rfl⟩ | ⟨rfl, rfl⟩
        exacts [⟨_, Or.inl ⟨rfl, rfl⟩, by norm_num [Limits.float], by norm_num [Limits.float]⟩, ⟨_, Or.inr (Or.inl ⟨rfl, rfl⟩), by norm_num, le_rfl⟩,
          ⟨_, Or.inr (Or.inr ⟨rfl, rfl⟩), by norm_num, le_rfl⟩]
      obtain ⟨κ, hκ, k0, k1⟩ := hκ
      obtain ⟨y, h1', -, -, h4'⟩ := C80_near_partial hκ (gammaQAsympt L) ha h' hc
      rw [h2] at h1'
      rw [(fin_inj _ _).1 h1']
      refine h4'.trans (le_trans ?_ k1)
      nlinarith
  refine ⟨?_, key⟩
  rw [← abs_neg]
  exact le_trans (le_of_eq (by congr 1; ring)) key

/-- The hypotheses are met by `GammaP(100., 90.)`, `GammaP(1.5, 1e-20)` and `GammaQ(0.5, 3.)`. -/
example : GammaError .double (1 / 10 ^ 10) ∧ (1 : ℝ) ≤ 100 ∧ (1 : ℝ) ≤ 3 / 2 ∧ 4 * Limits.double.epsilon ≤ 3 :=
  ⟨Or.inr (Or.inl ⟨rfl, rfl⟩), by norm_num, by norm_num, by norm_num [Limits.double]⟩

/-- C94, gamma_dist: with the library's own functions cdf is the distribution function of the Gamma distribution up to the error `d`,
`P` being the regularised incomplete Gamma function.  Missing: shapes below 1 at tiny `x`. -/
theorem C94_cdf_partial {L : Limits} {d : ℝ} (hd : GammaError L d) {kappa theta x : ℝ} (hk : 0 < kappa) (ht : 0 < theta) (inv : XR → XR → XR)
    (hx : 0 ≤ x) (h : 1 ≤ kappa ∨ 4 * L.epsilon * theta ≤ x) :
    ∃ p : ℝ, (gammaDist (gammaP L (gammaPAsympt L) true) inv (fin kappa) (fin theta)).cdf (fin x) = fin p ∧ |p - Spec.regGamma kappa (x / theta)| ≤ d := by
  obtain ⟨e0, e1, -⟩ := hd.eps
  simp only [gammaDist]
  rcases hx.eq_or_lt with rfl | hx
  · refine ⟨0, by simp, ?_⟩
    rw [zero_div, reg_zero]; simp; linarith
  · rw [if_neg (by simp [hx]), fin_div ht.ne']
    obtain ⟨p, q, h1, -, -, h4, -⟩ := C94_absolute_partial hd hk (div_pos hx ht).le (x := x / theta) (by
      rcases h with h | h
      · exact Or.inl h
      · right; right; rwa [le_div_iff₀ ht])
    exact ⟨p, h1, h4⟩

/-- C94, chi_square_dist: the same. -/
theorem C94_chi_square_cdf_partial {L : Limits} {d : ℝ} (hd : GammaError L d) {nu : ℤ} (hn : 0 < nu) {x : ℝ} (inv : XR → XR → XR)
    (hx : 0 ≤ x) (h : 2 ≤ nu ∨ 8 * L.epsilon ≤ x) :
    ∃ p : ℝ, (chiSquareDist (gammaP L (gammaPAsympt L) true) inv nu).cdf (fin x) = fin p ∧ |p - Spec.regGamma (nu / 2) (x / 2)| ≤ d := by
  rw [chi_cdf]
  refine C94_cdf_partial hd (nu_pos hn) two_pos inv hx ?_
  rcases h with h | h
  · left
    have : (2 : ℝ) ≤ nu := by exact_mod_cast h
    linarith
  · right; linarith

/-- C94: for all shapes and all deviates in (0,1) the samples of gamma_dist and chi_square_dist are positive numbers, the same as
icdf.  Missing: the deviate 0, see `C82_zero_wrong`. -/
theorem C94_samples_partial {L : Limits} (hL : L = .float ∨ L = .double ∨ L = .longDouble) {u : ℝ} (h0 : 0 < u) (h1 : u < 1) :
    (∀ kappa theta : ℝ, 0 < kappa → 0 < theta → ∃ y : ℝ, 0 < y ∧
      (gammaDist (gammaP L (gammaPAsympt L) true) (invGammaP L (gammaP L (gammaPAsympt L) true)) (fin kappa) (fin theta)).draw (fin u) = fin y ∧
      (gammaDist (gammaP L (gammaPAsympt L) true) (invGammaP L (gammaP L (gammaPAsympt L) true)) (fin kappa) (fin theta)).icdf (fin u) = fin y) ∧
    (∀ nu : ℤ, 0 < nu → ∃ y : ℝ, 0 < y ∧
      (chiSquareDist (gammaP L (gammaPAsympt L) true) (invGammaP L (gammaP L (gammaPAsympt L) true)) nu).draw (fin u) = fin y ∧
      (chiSquareDist (gammaP L (gammaPAsympt L) true) (invGammaP L (gammaP L (gammaPAsympt L) true)) nu).icdf (fin u) = fin y) := by
  have he : 0 ≤ L.epsilon := by rcases hL with rfl | rfl | rfl <;> norm_num [Limits.float, Limits.double, Limits.longDouble]
  have key : ∀ kappa theta : ℝ, 0 < kappa → 0 < theta → ∃ y : ℝ, 0 < y ∧
      (gammaDist (gammaP L (gammaPAsympt L) true) (invGammaP L (gammaP L (gammaPAsympt L) true)) (fin kappa) (fin theta)).draw (fin u) = fin y ∧
      (gammaDist (gammaP L (gammaPAsympt L) true) (invGammaP L (gammaP L (gammaPAsympt L) true)) (fin kappa) (fin theta)).icdf (fin u) = fin y := by
    intro k t hk ht
    obtain ⟨y, e, hy⟩ := C81_range (L := L) hk h0 h1 he fun x hx => by
      obtain ⟨p, q, h, -⟩ := C94_total hL hk hx.le
      exact ⟨p, h⟩
    refine ⟨y * t, mul_pos hy ht, ?_, ?_⟩
    · simp only [gammaDist, e, fin_mul]
    · rw [icdf_eq h0 h1, e, fin_mul]
  refine ⟨key, fun nu hn => ?_⟩
  rw [chi_draw, chi_icdf]
  exact key _ _ (nu_pos hn) two_pos

example : (0 : ℝ) < 1 / 3 ∧ (1 / 3 : ℝ) < 1 ∧ (0 : ℝ) < 1000 ∧ (0 : ℤ) < 50 := by norm_num

end Trng.Props
