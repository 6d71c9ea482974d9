import Verif.Proofs.InvGammaEnds
import Verif.Proofs.BetaDists
import Verif.Spec.GammaDists

/-! The distributions built on the incomplete Gamma function. -/
namespace Trng.GammaDists
open Set MeasureTheory XR Special BetaSeries GammaSeries Filter Topology InvGamma

variable {k θ : ℝ}

noncomputable def F (k θ x : ℝ) : ℝ := if x ≤ 0 then 0 else Spec.regGamma k (x / θ)
noncomputable def f (k θ x : ℝ) : ℝ := if x ≤ 0 then 0 else w k (x / θ) / θ

open Classical in
noncomputable def quantile (k u : ℝ) : ℝ := if h : ∃ r, 0 < r ∧ Spec.regGamma k r = u then h.choose else 0

theorem quantile_spec (hk : 0 < k) {u : ℝ} (h0 : 0 < u) (h1 : u < 1) : 0 < quantile k u ∧ Spec.regGamma k (quantile k u) = u := by
  have h := root hk h0 h1
  rw [quantile, dif_pos h]; exact h.choose_spec

theorem quantile_reg (hk : 0 < k) {x : ℝ} (hx : 0 < x) : quantile k (Spec.regGamma k x) = x := by
  have h : ∃ r, 0 < r ∧ Spec.regGamma k r = Spec.regGamma k x := ⟨x, hx, rfl⟩
  rw [quantile, dif_pos h]
  exact (P_strictMono hk).injOn h.choose_spec.1 hx h.choose_spec.2

theorem cdf_eq {GP inv : XR → XR → XR} (hθ : 0 < θ) (hGP : Spec.IsGammaP GP k) (x : ℝ) : (gammaDist GP inv (fin k) (fin θ)).cdf (fin x) = fin (F k θ x) := by
  simp only [gammaDist, F, ofNat_fin, fin_le, Nat.cast_zero]
  split_ifs with h
  · rfl
  · rw [fin_div hθ.ne', hGP _ (div_nonneg (not_le.1 h).le hθ.le)]

theorem pdf_eq {GP inv : XR → XR → XR} (hk : 0 < k) (hθ : 0 < θ) {x : ℝ} (hx : x ≠ 0) : (gammaDist GP inv (fin k) (fin θ)).pdf (fin x) = fin (f k θ x) := by
  simp only [gammaDist, f, ofNat_fin, fin_lt, Nat.cast_zero]
  rcases lt_or_gt_of_ne hx with h | h
  · rw [if_pos h, if_pos h.le]
  · have hd : 0 < x / θ := div_pos h hθ
    rw [if_neg (by linarith), if_neg (by linarith), fin_div hθ.ne', ln_fin hd, lnGamma_fin hk]
    simp only [fin_sub, fin_mul, exp_fin, Nat.cast_one]
    rw [fin_div hθ.ne', w]
    congr 3; ring

/-- Everything about a gamma distribution and its inverse that is independent of the representation of the density. -/
theorem data {D : ContDist} (hk : 0 < k) (hθ : 0 < θ) (hcdf : ∀ x, D.cdf (fin x) = fin (F k θ x)) (hpdf : ∀ x ≠ 0, D.pdf (fin x) = fin (f k θ x))
    (hmin : D.min = 0) (hmax : D.max = pinf) :
    CdfData (withIcdf D fun u => quantile k u * θ) (F k θ) (f k θ) (fun u => quantile k u * θ) {0} where
  cdf := hcdf
  pdf x hx := hpdf x (by simpa using hx)
  icdf u _ _ := rfl
  lower := Or.inr ⟨0, by simp [withIcdf, hmin]⟩
  upper := Or.inl (by simp [withIcdf, hmax])
  order := by simp [withIcdf, hmin, hmax]
  below x h := if_pos (by simpa [withIcdf, hmin] using h)
  above x h := by simp [withIcdf, hmax] at h
  mono x y h1 hxy _ := by
    have p0 : 0 < x := by simpa [withIcdf, hmin] using h1
    rw [F, F, if_neg (by linarith), if_neg (by linarith)]
    exact reg_mono hk (div_nonneg p0.le hθ.le) (div_nonneg (p0.le.trans hxy) hθ.le) (div_le_div_of_nonneg_right hxy hθ.le)
  right u h0 h1 := by
    obtain ⟨q0, e⟩ := quantile_spec hk h0 h1
    rw [F, if_neg (by have := mul_pos q0 hθ; linarith), mul_div_cancel_right₀ _ hθ.ne', e]
  left x h1 _ := by
    have p0 : 0 < x := by simpa [withIcdf, hmin] using h1
    have hd : 0 < x / θ := div_pos p0 hθ
    rw [F, if_neg (by linarith)]
    refine ⟨?_, reg_lt_one hk hd.le, ?_⟩
    · have h := P_strictMono hk (show (0 : ℝ) < x / θ / 2 by positivity) hd (by linarith)
      exact lt_of_le_of_lt (reg_nonneg hk (by positivity)) h
    · rw [quantile_reg hk hd, div_mul_cancel₀ _ hθ.ne']
  finite := by simp
  deriv x hx := by
    have hx0 : x ≠ 0 := by simpa using hx
    rcases lt_or_gt_of_ne hx0 with h | h
    · rw [f, if_pos h.le]
      exact hasDerivAt_left h (hasDerivAt_const x 0) fun y hy => if_pos hy.le
    · rw [f, if_neg (by linarith)]
      have hd : 0 < x / θ := div_pos h hθ
      have h1 : HasDerivAt (fun y => Spec.regGamma k (y / θ)) (w k (x / θ) / θ) x := by
        have := (P_deriv hk hd).comp x ((hasDerivAt_id x).div_const θ)
        refine this.congr_deriv ?_
        ring
      exact hasDerivAt_right h h1 fun y hy => by rw [F, if_neg (by linarith)]
  nonneg x hx := by
    rw [f]; split_ifs with h
    · exact le_rfl
    · exact div_nonneg (w_pos _ _).le hθ.le

theorem tendsto_top (hk : 0 < k) (hθ : 0 < θ) : Tendsto (F k θ) atTop (𝓝 1) := by
  have h := (reg_tendsto hk).comp (tendsto_id.atTop_div_const hθ)
  refine h.congr' ?_
  filter_upwards [eventually_gt_atTop 0] with x hx
  rw [F, if_neg (by linarith)]; rfl

theorem inside {D : ContDist} {inv : ℝ → XR} {d : ℝ} (hk : 0 < k) (hθ : 0 < θ) (hd : 0 ≤ d) (hcdf : ∀ x, D.cdf (fin x) = fin (F k θ x))
    (hpdf : ∀ x ≠ 0, D.pdf (fin x) = fin (f k θ x)) (hmin : D.min = 0) (hmax : D.max = pinf) (hdev : D.deviate = Ico 0 1)
    (hdraw : ∀ u, D.draw (fin u) = inv u * fin θ) (hicdf : ∀ u, 0 < u → u < 1 → D.icdf (fin u) = inv u * fin θ)
    (hinv : ∀ u : ℝ, 0 < u → u < 1 → ∃ y : ℝ, inv u = fin y ∧ 0 < y ∧ |Spec.regGamma k y - u| ≤ d) : Spec.InverseInside D d := by
  have X := data hk hθ hcdf hpdf hmin hmax
  have hval : ∀ u : ℝ, 0 < u → u < 1 → ∃ y : ℝ, inv u * fin θ = fin y ∧ 0 < y ∧ |F k θ y - u| ≤ d := by
    intro u h0 h1
    obtain ⟨y, e, hy, hq⟩ := hinv u h0 h1
    have hp := mul_pos hy hθ
    refine ⟨y * θ, by rw [e, fin_mul], hp, ?_⟩
    rw [F, if_neg (by linarith), mul_div_cancel_right₀ _ hθ.ne']; exact hq
  refine ⟨fun u h0 h1 => ?_, fun u hu hne => ?_, fun x hx => ⟨_, hcdf x, ?_⟩⟩
  · obtain ⟨y, e, hy, hq⟩ := hval u h0 h1
    exact ⟨y, _, by rw [hicdf u h0 h1, e], by rw [hmin]; simpa using hy, by rw [hmax]; trivial, hcdf y, hq⟩
  · rw [hdev] at hu
    obtain ⟨y, e, hy, -⟩ := hval u (lt_of_le_of_ne hu.1 (Ne.symm hne)) hu.2
    exact ⟨y, by rw [hdraw, e], by rw [hmin]; simpa using hy, by rw [hmax]; trivial⟩
  · rw [hdev]
    have hl := law_within X.monotone (I := Ioo 0 1) (draw := fun u => D.draw (fin u)) (d := d) (e := 0) (x := x) Ioo_subset_Icc_self subset_rfl le_rfl hd (X.range x).2 (X.range x).1
      (fun u hu h => absurd hu.1 (not_lt.2 h.le)) (fun u hu _ _ => by
        obtain ⟨y, e, -, hq⟩ := hval u hu.1 hu.2
        exact ⟨y, by rw [hdraw, e], hq⟩) (fun u hu h => by have := hu.2; linarith)
    refine ⟨hl.1.trans (measure_mono fun u hu => ⟨Ioo_subset_Ico_self hu.1, hu.2⟩), le_trans ?_ hl.2⟩
    have hsub : {u : ℝ | u ∈ Ico 0 1 ∧ D.draw (fin u) ≤ fin x} ⊆ {u : ℝ | u ∈ Ioo 0 1 ∧ D.draw (fin u) ≤ fin x} ∪ {0} := by
      rintro u ⟨hu, h⟩
      rcases eq_or_lt_of_le hu.1 with h0 | h0
      · exact Or.inr h0.symm
      · exact Or.inl ⟨⟨h0, hu.2⟩, h⟩
    refine (measure_mono hsub).trans ((measure_union_le _ _).trans ?_)
    rw [Real.volume_singleton, add_zero]

theorem icdf_eq {GP inv : XR → XR → XR} {u : ℝ} (h0 : 0 < u) (h1 : u < 1) : (gammaDist GP inv (fin k) (fin θ)).icdf (fin u) = inv (fin k) (fin u) * fin θ := by
  simp only [gammaDist, ofNat_fin, fin_le, fin_eq, Nat.cast_zero, Nat.cast_one]
  rw [if_neg (by push Not; exact ⟨h0, h1⟩), if_neg h0.ne', if_neg h1.ne]

/-! ### chi_square_dist -/

variable {n : ℤ}

theorem half (n : ℤ) : ofInt n / 2 = fin (n / 2) := by
  rw [show ofInt n = fin (n : ℝ) from rfl, ofNat_fin, fin_div (by norm_num)]; norm_num

theorem chi_cdf (GP inv : XR → XR → XR) (n : ℤ) : (chiSquareDist GP inv n).cdf = (gammaDist GP inv (fin (n / 2)) (fin 2)).cdf := by
  funext x; simp only [chiSquareDist, gammaDist, half]; rfl
theorem chi_icdf (GP inv : XR → XR → XR) (n : ℤ) : (chiSquareDist GP inv n).icdf = (gammaDist GP inv (fin (n / 2)) (fin 2)).icdf := by
  funext x; simp only [chiSquareDist, gammaDist, half]; rfl
theorem chi_draw (GP inv : XR → XR → XR) (n : ℤ) : (chiSquareDist GP inv n).draw = (gammaDist GP inv (fin (n / 2)) (fin 2)).draw := by
  funext x; simp only [chiSquareDist, gammaDist, half]; rfl

theorem chi_pdf {GP inv : XR → XR → XR} (hn : 0 < n) {x : ℝ} (hx : x ≠ 0) : (chiSquareDist GP inv n).pdf (fin x) = fin (f (n / 2) 2 x) := by
  have hk : (0 : ℝ) < n / 2 := by have : (0 : ℝ) < n := by exact_mod_cast hn
                                  linarith
  simp only [chiSquareDist, f, ofNat_fin, fin_lt, Nat.cast_zero]
  rcases lt_or_gt_of_ne hx with h | h
  · rw [if_pos h, if_pos h.le]
  · have hd : 0 < x / 2 := by linarith
    rw [if_neg (by linarith), if_neg (by linarith)]
    have e := half n
    rw [ofNat_fin] at e
    rw [e, show ((2 : ℕ) : ℝ) = 2 by norm_num, fin_div two_ne_zero, lnGamma_fin hk]
    simp only [fin_sub, fin_mul, fin_add, exp_fin, Nat.cast_one]
    rw [pow_fin hd, fin_div (by positivity), w]
    congr 1
    rw [Real.rpow_def_of_pos hd, ← div_div, ← Real.exp_sub]
    congr 2; ring

end Trng.GammaDists
