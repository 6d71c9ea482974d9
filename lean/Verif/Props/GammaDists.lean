import Verif.Proofs.GammaDists
import Verif.Props.GammaFun
import Verif.Props.InvGammaFun

/-! Property C82: gamma_dist and chi_square_dist. -/
namespace Trng.Props
open XR Special Set MeasureTheory Filter Topology GammaDists InvGamma

/-! ### C82 -/

/-- The law of a `CdfData`, except at infinity. -/
theorem law_of_data {D : ContDist} {k θ : ℝ} (hk : 0 < k) (hθ : 0 < θ) (hcdf : ∀ x, D.cdf (fin x) = fin (F k θ x)) (hpdf : ∀ x ≠ 0, D.pdf (fin x) = fin (f k θ x))
    (hmin : D.min = 0) (hmax : D.max = pinf) : Spec.HasDensity D {0} ∧ Spec.CdfLaw D := by
  have X := data hk hθ hcdf hpdf hmin hmax
  refine ⟨?_, F k θ, hcdf, X.monotone, X.range, X.below, X.above, ?_, tendsto_top hk hθ⟩
  · obtain ⟨G, g, h1, h2, h3⟩ := X.hasDensity
    exact ⟨G, g, h1, h2, h3⟩
  · refine tendsto_const_nhds.congr' ?_
    filter_upwards [eventually_le_atBot 0] with x hx
    rw [F, if_pos hx]

/-- C82, gamma_dist: with an exact `GammaP`, cdf is the integral of pdf and a distribution function on the positive numbers. -/
theorem C82_gamma {GP inv : XR → XR → XR} {kappa theta : ℝ} (hk : 0 < kappa) (ht : 0 < theta) (hGP : Spec.IsGammaP GP kappa) :
    Spec.HasDensity (gammaDist GP inv (fin kappa) (fin theta)) {0} ∧ Spec.CdfLaw (gammaDist GP inv (fin kappa) (fin theta)) :=
  law_of_data hk ht (cdf_eq ht hGP) (fun _ hx => pdf_eq hk ht hx) rfl rfl

theorem nu_pos {nu : ℤ} (hn : 0 < nu) : (0 : ℝ) < nu / 2 := by
  have : (0 : ℝ) < nu := by exact_mod_cast hn
  linarith

/-- C82, chi_square_dist: with an exact `GammaP`, cdf is the integral of pdf and a distribution function on the positive numbers. -/
theorem C82_chi_square {GP inv : XR → XR → XR} {nu : ℤ} (hn : 0 < nu) (hGP : Spec.IsGammaP GP (nu / 2)) :
    Spec.HasDensity (chiSquareDist GP inv nu) {0} ∧ Spec.CdfLaw (chiSquareDist GP inv nu) :=
  law_of_data (nu_pos hn) two_pos (fun x => by rw [chi_cdf]; exact cdf_eq two_pos hGP x) (fun _ hx => chi_pdf hn hx) rfl rfl

/-- C82: a chi-square distribution with ν degrees of freedom is the gamma distribution with κ = ν/2 and θ = 2, in all that the
class offers, except at 0 where the density of gamma_dist can be NaN. -/
theorem C82_same {GP inv : XR → XR → XR} {nu : ℤ} (hn : 0 < nu) :
    (chiSquareDist GP inv nu).cdf = (gammaDist GP inv (fin (nu / 2)) (fin 2)).cdf ∧ (chiSquareDist GP inv nu).icdf = (gammaDist GP inv (fin (nu / 2)) (fin 2)).icdf ∧
      (chiSquareDist GP inv nu).draw = (gammaDist GP inv (fin (nu / 2)) (fin 2)).draw ∧
      (chiSquareDist GP inv nu).deviate = (gammaDist GP inv (fin (nu / 2)) (fin 2)).deviate ∧
      ∀ x : ℝ, x ≠ 0 → (chiSquareDist GP inv nu).pdf (fin x) = (gammaDist GP inv (fin (nu / 2)) (fin 2)).pdf (fin x) :=
  ⟨chi_cdf .., chi_icdf .., chi_draw .., rfl, fun x hx => by rw [chi_pdf hn hx, pdf_eq (nu_pos hn) two_pos hx]⟩

/-- C82: if `inv_GammaP` inverts `GammaP` up to an error `d` of the probability, icdf inverts cdf up to `d`, the samples are numbers
inside the support and have the distribution function cdf up to `d`.  Missing: that the library's `inv_GammaP` does it within its
`digits` turns, see C81; and the deviate 0, see `C82_zero_wrong`. -/
theorem C82_inverse_partial {GP inv : XR → XR → XR} {d : ℝ} (hd : 0 ≤ d) :
    (∀ kappa theta : ℝ, 0 < kappa → 0 < theta → Spec.IsGammaP GP kappa → Spec.InvertsGamma inv kappa d →
      Spec.InverseInside (gammaDist GP inv (fin kappa) (fin theta)) d) ∧
    (∀ nu : ℤ, 0 < nu → Spec.IsGammaP GP (nu / 2) → Spec.InvertsGamma inv (nu / 2) d → Spec.InverseInside (chiSquareDist GP inv nu) d) := by
  refine ⟨fun k t hk ht hGP hi => inside hk ht hd (cdf_eq ht hGP) (fun _ hx => pdf_eq hk ht hx) rfl rfl rfl (inv := fun u => inv (fin k) (fin u)) (fun _ => rfl)
    (fun u h0 h1 => icdf_eq h0 h1) hi, fun nu hn hGP hi => ?_⟩
  refine inside (nu_pos hn) two_pos hd (fun x => by rw [chi_cdf]; exact cdf_eq two_pos hGP x) (fun _ hx => chi_pdf hn hx) rfl rfl rfl
    (inv := fun u => inv (fin (nu / 2)) (fin u)) (fun u => by rw [chi_draw]; rfl) (fun u h0 h1 => ?_) hi
  rw [chi_icdf]; exact icdf_eq h0 h1

/-- An exact `inv_GammaP`, for the examples. -/
noncomputable def exactInvGamma : XR → XR → XR := fun a p => match a, p with | fin a, fin p => fin (GammaDists.quantile a p) | _, _ => nan

example : Spec.HasDensity (gammaDist exactGamma exactInvGamma (fin (5 / 2)) (fin 3)) {0} := (C82_gamma (by norm_num) (by norm_num) (exactGamma_isGammaP _)).1
example : Spec.CdfLaw (chiSquareDist exactGamma exactInvGamma 7) := (C82_chi_square (by norm_num) (exactGamma_isGammaP _)).2
example : Spec.InverseInside (chiSquareDist exactGamma exactInvGamma 7) 0 :=
  (C82_inverse_partial le_rfl).2 7 (by norm_num) (exactGamma_isGammaP _) fun u h0 h1 => by
    obtain ⟨q0, e⟩ := GammaDists.quantile_spec (k := ((7 : ℤ) : ℝ) / 2) (by norm_num) h0 h1
    exact ⟨_, rfl, q0, by rw [e]; simp⟩

/-- The library's `GammaP` returns numbers where it does not use the asymptotic expansion. -/
theorem gammaP_finite {L : Limits} (hL : L = .float ∨ L = .double ∨ L = .longDouble) (asympt : XR → XR → XR) {a x : ℝ} (ha : 0 < a) (haD : a ≤ L.digits10) (hx : 0 < x) :
    ∃ y : ℝ, gammaP L asympt true (fin a) (fin x) = fin y := by
  have hc : ¬Central L a x := fun h => absurd h.1 (not_lt.2 haD)
  rcases lt_or_ge x (a + 1) with h | h
  · rcases lt_or_ge x (4 * L.epsilon) with h4 | h4
    · have hd : ¬(fin x < 0 ∨ fin a ≤ 0) := by
        simp only [ofNat_fin, fin_lt, fin_le, Nat.cast_zero]; push Not; exact ⟨hx.le, ha⟩
      have hc' : ¬(fin L.digits10 < fin a ∧ 3 / 10 * fin a < fin x ∧ fin x < 235 / 100 * fin a) := by
        rw [fin_lt]; rintro ⟨h, -⟩; linarith
      have hl : fin x < fin a + 1 := by rw [ofNat_fin, fin_add, fin_lt]; push_cast; exact h
      refine ⟨0, ?_⟩
      rw [gammaP, if_neg hd, if_pos rfl, if_neg hc', if_pos hl, gammaPSer, if_pos]
      · simp
      · simp only [ofNat_fin, fin_mul, fin_lt, Nat.cast_ofNat]; exact h4
    · obtain ⟨y, e, -⟩ := C80_series_partial hL asympt ha h4 h hc
      exact ⟨y, e⟩
  · rcases hL with rfl | rfl | rfl
    · obtain ⟨y, -, e, -⟩ := C80_near_partial (L := .float) (Or.inl ⟨rfl, rfl⟩) asympt ha h hc
      exact ⟨_, e⟩
    · obtain ⟨y, -, e, -⟩ := C80_near_partial (L := .double) (Or.inr (Or.inl ⟨rfl, rfl⟩)) asympt ha h hc
      exact ⟨_, e⟩
    · obtain ⟨y, -, e, -⟩ := C80_near_partial (L := .longDouble) (Or.inr (Or.inr ⟨rfl, rfl⟩)) asympt ha h hc
      exact ⟨_, e⟩

/-- C82 with the library's own `GammaP` and `inv_GammaP`, for κ up to `digits10`: for all deviates in (0,1) the samples are positive
numbers, and so is icdf.  Missing: larger κ, for which the asymptotic expansion is used; the deviate 0, see `C82_zero_wrong`. -/
theorem C82_samples_partial {L : Limits} (hL : L = .float ∨ L = .double ∨ L = .longDouble) (asympt : XR → XR → XR) {kappa theta : ℝ} (hk : 0 < kappa) (hkD : kappa ≤ L.digits10)
    (ht : 0 < theta) {u : ℝ} (h0 : 0 < u) (h1 : u < 1) :
    ∃ y : ℝ, 0 < y ∧ (gammaDist (gammaP L asympt true) (invGammaP L (gammaP L asympt true)) (fin kappa) (fin theta)).draw (fin u) = fin y ∧
      (gammaDist (gammaP L asympt true) (invGammaP L (gammaP L asympt true)) (fin kappa) (fin theta)).icdf (fin u) = fin y := by
  have he : 0 ≤ L.epsilon := by rcases hL with rfl | rfl | rfl <;> norm_num [Limits.float, Limits.double, Limits.longDouble]
  obtain ⟨y, e, hy⟩ := C81_range (L := L) hk h0 h1 he fun x hx => gammaP_finite hL asympt hk hkD hx
  refine ⟨y * theta, mul_pos hy ht, ?_, ?_⟩
  · simp only [gammaDist, e, fin_mul]
  · rw [icdf_eq h0 h1, e, fin_mul]

example : (0 : ℝ) < 5 / 2 ∧ (5 / 2 : ℝ) ≤ Limits.float.digits10 ∧ (0 : ℝ) < 1 / 2 := by norm_num [Limits.float]

/-- C82 fails for the deviate 0, which the generators do produce: the sample of gamma_dist with κ > 1 and of chi_square_dist with
ν > 2 is NaN. -/
theorem C82_zero_wrong (L : Limits) (GP : XR → XR → XR) :
    (∀ kappa theta : ℝ, 1 < kappa → (0 : ℝ) ∈ (gammaDist GP (invGammaP L GP) (fin kappa) (fin theta)).deviate ∧
      (gammaDist GP (invGammaP L GP) (fin kappa) (fin theta)).draw (fin 0) = nan) ∧
    (∀ nu : ℤ, 2 < nu → (0 : ℝ) ∈ (chiSquareDist GP (invGammaP L GP) nu).deviate ∧ (chiSquareDist GP (invGammaP L GP) nu).draw (fin 0) = nan) := by
  refine ⟨fun k t hk => ⟨⟨le_rfl, one_pos⟩, ?_⟩, fun nu hn => ⟨⟨le_rfl, one_pos⟩, ?_⟩⟩
  · simp only [gammaDist, C81_zero_wrong L GP hk, nan_mul]
  · have : (1 : ℝ) < nu / 2 := by
      have : (2 : ℝ) < nu := by exact_mod_cast hn
      linarith
    rw [chi_draw]; simp only [gammaDist, C81_zero_wrong L GP this, nan_mul]

/-- C82 fails at the ends: icdf(0) and icdf(1) are NaN; the lines that return the ends of the support are never reached. -/
theorem C82_ends_wrong (GP inv : XR → XR → XR) (kappa theta : XR) (nu : ℤ) :
    (gammaDist GP inv kappa theta).icdf 0 = nan ∧ (gammaDist GP inv kappa theta).icdf 1 = nan ∧ (chiSquareDist GP inv nu).icdf 0 = nan ∧ (chiSquareDist GP inv nu).icdf 1 = nan := by
  simp [gammaDist, chiSquareDist]

/-- C82 fails for the density at 0: that of gamma_dist with κ = 1, the exponential distribution, is 1/θ there, but the result is
NaN; chi_square_dist with ν = 2 gives the right value 1/2. -/
theorem C82_pdf_wrong (GP inv : XR → XR → XR) {theta : ℝ} (ht : 0 < theta) :
    (gammaDist GP inv (fin 1) (fin theta)).pdf (fin 0) = nan ∧ (chiSquareDist GP inv 2).pdf (fin 0) = fin (1 / 2) := by
  constructor
  · simp only [gammaDist, ofNat_fin, fin_lt, Nat.cast_zero, lt_irrefl, if_false, Nat.cast_one, fin_sub, sub_self]
    rw [fin_div ht.ne', zero_div, ln_zero', fin_mul_ninf, neg_zero, infSign, if_neg (lt_irrefl _), if_neg (lt_irrefl _)]
    simp
  · simp only [chiSquareDist, half]
    simp only [ofNat_fin, fin_lt, Nat.cast_zero, lt_irrefl, if_false, Nat.cast_one, Nat.cast_ofNat]
    rw [fin_div two_ne_zero, fin_sub, BetaSeries.lnGamma_fin (by norm_num), show ((2 : ℤ) : ℝ) / 2 = 1 by norm_num, sub_self, zero_div, XR.pow, if_pos rfl, Real.Gamma_one,
      Real.log_one, fin_add, add_zero, exp_fin, Real.exp_zero, fin_mul, fin_div (by norm_num)]
    norm_num

/-- C82 fails at infinity: cdf(+∞) is NaN instead of 1, because the library's `GammaP(a, +∞)` is NaN. -/
theorem C82_infinity_wrong (L : Limits) (asympt inv : XR → XR → XR) {kappa theta : ℝ} (hk : 0 < kappa) (ht : 0 < theta) {nu : ℤ} (hn : 0 < nu) :
    (gammaDist (gammaP L asympt true) inv (fin kappa) (fin theta)).cdf pinf = nan ∧ (chiSquareDist (gammaP L asympt true) inv nu).cdf pinf = nan := by
  have key : ∀ {k t : ℝ}, 0 < k → 0 < t → (gammaDist (gammaP L asympt true) inv (fin k) (fin t)).cdf pinf = nan := by
    intro k t hk ht
    simp only [gammaDist]
    rw [if_neg (by simp), pinf_div_fin ht.le, (C80_infinity_wrong L asympt hk).1]
  exact ⟨key hk ht, by rw [chi_cdf]; exact key (nu_pos hn) two_pos⟩

end Trng.Props
