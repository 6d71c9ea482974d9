import Verif.Proofs.TemmeInt

/-! The error of the expansion: relative and absolute. -/
namespace Trng.Temme
open Set Filter Topology

variable {a e z : ℝ} {F : List ℚ} {B : List ℝ} {r C1 C2 s1 : ℚ} {N : ℕ}

theorem factor_eq (hct : 0 < ct a B) : (psi a B 1 0 / (ct a B / cc a) - qq a 1 0) + (psi a B (-1) 0 / (ct a B / cc a) - qq a (-1) 0)
    = 1 / (ct a B / cc a) - 1 := by
  have h1 := psi_zero_add a B
  have h2 := qq_zero_add a
  have hcc := cc_pos a
  have h3 : psi a B (-1) 0 = 1 - psi a B 1 0 := by linarith
  have h4 : qq a (-1) 0 = 1 - qq a 1 0 := by linarith
  rw [h3, h4]
  field_simp
  ring

/-- from the error up to the factor to the error -/
theorem finish {L p q δ η : ℝ} (hL : |1 / L - 1| ≤ η) (hη : η < 1) (hLp : 0 < L) (h : |p / L - q| ≤ δ) :
    |p - q| ≤ (δ + η * |q|) / (1 - η) := by
  have h1 : 1 - η ≤ 1 / L := by have := neg_le_of_abs_le hL; linarith
  have h2 : p - q = ((p / L - q) - q * (1 / L - 1)) / (1 / L) := by field_simp; ring
  have hpos : 0 < 1 - η := by linarith
  have h3 : |(p / L - q) - q * (1 / L - 1)| ≤ δ + η * |q| := by
    have := abs_sub (p / L - q) (q * (1 / L - 1))
    rw [abs_mul] at this
    have h4 := mul_le_mul_of_nonneg_left hL (abs_nonneg q)
    linarith
  rw [h2, abs_div, abs_of_pos (hpos.trans_le h1)]
  exact div_le_div₀ ((abs_nonneg _).trans h3) h3 hpos h1

variable (ha : 0 < a) (hD : 0 < 1 + B.getD 1 0 / a) (h : Corr a F B) (hZ : Zones F r N C2) (hM : Mid F r N s1 C1)
include ha hD h hZ hM

theorem relative {h0 w Δ : ℝ} (hw : 0 < w) (hΔ : evr (pE F) s1 + (C1 * MM a N s1 + C2 * MM a N r) * Real.exp (a * h0) / w ≤ Δ) (hΔ1 : Δ < 1)
    (hs : 0 ≤ C1 * MM a N s1 + C2 * MM a N r) (he : Sign e) (hz : 0 ≤ z) (hzr : tt e z ≤ r) (hhz : hh (e * (z + w)) ≤ h0)
    (hp : hh w ≤ h0) (hm : hh (-w) ≤ h0) : |psi a B e z - qq a e z| ≤ 2 * Δ / (1 - Δ) * qq a e z := by
  have hr1 : (0 : ℝ) < r := by exact_mod_cast hZ.r_pos
  have hct := ct_pos (B := B) ha hD
  have hcc := cc_pos a
  have key : ∀ e' z', Sign e' → 0 ≤ z' → tt e' z' ≤ r → hh (e' * (z' + w)) ≤ h0 →
      |psi a B e' z' / (ct a B / cc a) - qq a e' z'| ≤ Δ * qq a e' z' := by
    intro e' z' he' hz' ht' hh'
    have h1 := compare ha hD h hZ hM he' hz' ht'
    have h2 := qq_ge ha he' hz' hw.le
    have h3 : w * cc a * Real.exp (-(a * h0)) ≤ qq a e' z' := by
      refine le_trans ?_ h2
      refine mul_le_mul_of_nonneg_left (Real.exp_le_exp.2 ?_) (by positivity)
      nlinarith
    have h4 : cc a ≤ Real.exp (a * h0) / w * qq a e' z' := by
      have e1 : Real.exp (a * h0) * Real.exp (-(a * h0)) = 1 := by rw [← Real.exp_add]; simp
      have e2 := Real.exp_pos (a * h0)
      have := mul_le_mul_of_nonneg_left h3 (div_pos e2 hw).le
      have e3 : Real.exp (a * h0) / w * (w * cc a * Real.exp (-(a * h0))) = cc a := by
        field_simp; linear_combination e1
      linarith
    have h5 := mul_le_mul_of_nonneg_right h4 hs
    have h6 := mul_le_mul_of_nonneg_right hΔ (qq_nonneg ha he' z')
    refine h1.trans (le_trans ?_ h6)
    rw [add_mul]
    refine add_le_add le_rfl (h5.trans_eq ?_)
    ring
  have hf : |1 / (ct a B / cc a) - 1| ≤ Δ := by
    rw [← factor_eq hct]
    have h1 := key 1 0 (Or.inl rfl) le_rfl (by rw [tt_zero]; exact hr1.le) (by rw [zero_add, one_mul]; exact hp)
    have h2 := key (-1) 0 (Or.inr rfl) le_rfl (by rw [tt_zero]; exact hr1.le) (by rw [zero_add, neg_one_mul]; exact hm)
    have h3 := qq_zero_add a
    refine (abs_add_le _ _).trans ((add_le_add h1 h2).trans_eq ?_)
    rw [← mul_add, h3, mul_one]
  have h1 := finish hf hΔ1 (div_pos hct hcc) (key e z he hz hzr hhz)
  rw [abs_of_nonneg (qq_nonneg ha he z)] at h1
  refine h1.trans_eq ?_
  ring

theorem absolute {h0 w E A : ℝ} (hw : 0 < w) (hE : evr (pE F) s1 ≤ E) (hA : (C1 * MM a N s1 + C2 * MM a N r) * Real.exp (a * h0) / w ≤ A) (hΔ1 : E + A < 1)
    (hs : 0 ≤ C1 * MM a N s1 + C2 * MM a N r) (he : Sign e) (hz : 0 ≤ z) (hzr : tt e z ≤ r)
    (hp : hh w ≤ h0) (hm : hh (-w) ≤ h0) : |psi a B e z - qq a e z| ≤ (2 * E + 3 / 2 * A) / (1 - (E + A)) := by
  have hr1 : (0 : ℝ) < r := by exact_mod_cast hZ.r_pos
  have hct := ct_pos (B := B) ha hD
  have hcc := cc_pos a
  have hE0 : 0 ≤ E := (evr_nonneg (nonneg_pE F) (by exact_mod_cast hM.s_pos.le)).trans hE
  have hq1 : ∀ e', Sign e' → w * cc a * Real.exp (-(a * h0)) ≤ qq a e' 0 := by
    intro e' he'
    refine le_trans ?_ (qq_ge ha he' le_rfl hw.le)
    refine mul_le_mul_of_nonneg_left (Real.exp_le_exp.2 ?_) (by positivity)
    have : hh (e' * (0 + w)) ≤ h0 := by
      rcases he' with rfl | rfl
      · rwa [zero_add, one_mul]
      · rwa [zero_add, neg_one_mul]
    nlinarith
  have hc : cc a * (C1 * MM a N s1 + C2 * MM a N r) ≤ A / 2 := by
    have h1 := hq1 1 (Or.inl rfl)
    have h2 := hq1 (-1) (Or.inr rfl)
    have h3 := qq_zero_add a
    have h4 : cc a ≤ Real.exp (a * h0) / w / 2 := by
      have e1 : Real.exp (a * h0) * Real.exp (-(a * h0)) = 1 := by rw [← Real.exp_add]; simp
      have e2 := Real.exp_pos (a * h0)
      have h5 : w * cc a * Real.exp (-(a * h0)) ≤ 1 / 2 := by linarith
      have := mul_le_mul_of_nonneg_left h5 (div_pos e2 hw).le
      have e3 : Real.exp (a * h0) / w * (w * cc a * Real.exp (-(a * h0))) = cc a := by
        field_simp; linear_combination e1
      linarith
    have h5 := mul_le_mul_of_nonneg_right h4 hs
    have h6 : Real.exp (a * h0) / w / 2 * (C1 * MM a N s1 + C2 * MM a N r) = (C1 * MM a N s1 + C2 * MM a N r) * Real.exp (a * h0) / w / 2 := by ring
    linarith
  have hqq1 : ∀ e' z', Sign e' → qq a e' z' ≤ 1 := by
    intro e' z' he'
    have hx : 0 ≤ a * Real.exp (e' * z') := by positivity
    rcases he' with rfl | rfl
    · have := InvGamma.reg_nonneg ha hx
      rw [qq]; linarith
    · have := InvGamma.reg_lt_one ha hx
      rw [qq]; linarith
  have key : ∀ e' z', Sign e' → 0 ≤ z' → tt e' z' ≤ r →
      |psi a B e' z' / (ct a B / cc a) - qq a e' z'| ≤ E * qq a e' z' + A / 2 := by
    intro e' z' he' hz' ht'
    have h1 := compare ha hD h hZ hM he' hz' ht'
    have := mul_le_mul_of_nonneg_right hE (qq_nonneg ha he' z')
    linarith
  have hf : |1 / (ct a B / cc a) - 1| ≤ E + A := by
    rw [← factor_eq hct]
    have h1 := key 1 0 (Or.inl rfl) le_rfl (by rw [tt_zero]; exact hr1.le)
    have h2 := key (-1) 0 (Or.inr rfl) le_rfl (by rw [tt_zero]; exact hr1.le)
    have h3 := qq_zero_add a
    refine (abs_add_le _ _).trans ((add_le_add h1 h2).trans_eq ?_)
    linear_combination E * h3
  have h1 := finish hf hΔ1 (div_pos hct hcc) (key e z he hz hzr)
  rw [abs_of_nonneg (qq_nonneg ha he z)] at h1
  refine h1.trans ?_
  have hA0 : 0 ≤ E + A := (abs_nonneg _).trans hf
  have h2 := hqq1 e z he
  have h3 := qq_nonneg ha he z
  refine div_le_div_of_nonneg_right ?_ (by linarith)
  nlinarith

end Trng.Temme
