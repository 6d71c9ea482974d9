import Verif.Proofs.TailApprox
import Verif.Props.GammaAll

/-! Proofs for poisson_dist and zero_truncated_poisson_dist with the library's `GammaQ`. -/
namespace Trng.TailApprox
open Discrete XR MeasureTheory Special Props GammaSeries GammaFraction

/-- Poisson's distribution function is a regularised incomplete Gamma function. -/
theorem reg_poi {mu : ℝ} (h : 0 ≤ mu) (k : ℕ) : 1 - Spec.regGamma ((k : ℝ) + 1) mu = (Finset.range (k + 1)).sum (poi mu) := by
  have hk : (0 : ℝ) < (k : ℝ) + 1 := by positivity
  rw [complement_reg hk h, ← gammaQ_nat h k, ← upper_eq, Spec.upperGamma]
  congr 1
  exact integral_congr_ae (Filter.Eventually.of_forall fun t => mul_comm _ _)

theorem double_error : GammaError .double (1 / 10 ^ 10) := Or.inr (Or.inl ⟨rfl, rfl⟩)

/-- The value of the library. -/
theorem lib_value {mu : ℝ} (h : 0 ≤ mu) (k : ℕ) :
    ∃ q : ℝ, libGammaQ (ofInt k + 1) (fin mu) = fin q ∧ |q - (Finset.range (k + 1)).sum (poi mu)| ≤ 1 / 10 ^ 10 := by
  have e : (ofInt k : XR) + 1 = fin ((k : ℝ) + 1) := by simp [ofInt]
  obtain ⟨p, q, -, h2, -, -, h5⟩ := C94_absolute_partial double_error (a := (k : ℝ) + 1) (x := mu) (by positivity) h (Or.inl (by simp))
  rw [reg_poi h] at h5
  exact ⟨q, by rw [libGammaQ, e]; exact h2, h5⟩

/-- The value at the end of the table. -/
theorem lib_end {mu : ℝ} (h : 0 ≤ mu) {k : ℕ} (hk : 2 * mu ≤ k) {q : ℝ} (hq : libGammaQ (ofInt k + 1) (fin mu) = fin q) :
    |q - (Finset.range (k + 1)).sum (poi mu)| ≤ 1024 * Limits.double.epsilon ∧ (k ≤ 14 → (Finset.range (k + 1)).sum (poi mu) ≤ q) := by
  have e : (ofInt k : XR) + 1 = fin ((k : ℝ) + 1) := by simp [ofInt]
  rw [libGammaQ, e] at hq
  have hk0 : (0 : ℝ) < (k : ℝ) + 1 := by positivity
  have hL : Limits.double = .float ∨ Limits.double = .double ∨ Limits.double = .longDouble := Or.inr (Or.inl rfl)
  rw [← reg_poi h]
  by_cases hc : Central .double ((k : ℝ) + 1) mu
  · obtain ⟨p', q', -, h2', -, -, h5⟩ := C93_absolute hL hc
    rw [hq] at h2'
    rw [(fin_inj _ _).1 h2']
    refine ⟨h5, fun hk14 => ?_⟩
    have h15 := hc.1
    have : (k : ℝ) ≤ 14 := by exact_mod_cast hk14
    norm_num [Limits.double] at h15
    linarith
  rcases lt_or_ge mu (4 * Limits.double.epsilon) with h4 | h4
  · obtain ⟨h1', -⟩ := tiny_aux hL hk0 h h4
    rw [hq] at h1'
    have hr := InvGamma.reg_nonneg hk0 h
    have he : (0 : ℝ) < Limits.double.epsilon := by norm_num [Limits.double]
    rw [(fin_inj _ _).1 h1', sub_sub_cancel, abs_of_nonneg hr]
    refine ⟨(GammaAll.reg_le (by simp) h (h4.le.trans (by norm_num [Limits.double]))).trans (by linarith), fun _ => by linarith⟩
  · obtain ⟨y, -, h2', h0, hy1, hy2⟩ := C80_series_partial hL (gammaQAsympt .double) hk0 h4 (by linarith) hc
    rw [hq] at h2'
    have h1 := InvGamma.reg_lt_one hk0 h
    rw [(fin_inj _ _).1 h2', show ∀ r : ℝ, 1 - y - (1 - r) = r - y from fun r => by ring, abs_of_nonneg (by linarith)]
    refine ⟨?_, fun _ => by linarith⟩
    norm_num [Limits.double] at hy2 ⊢
    linarith

/-- The error for small means is small compared with the probability not to be 0. -/
theorem lib_zt {mu : ℝ} (h : 0 < mu) {k : ℕ} (hk : 1 ≤ k) {q : ℝ} (hq : libGammaQ (ofInt k + 1) (fin mu) = fin q) :
    |q - (Finset.range (k + 1)).sum (poi mu)| ≤ 2 * (1 / 10 ^ 10) * (1 - Real.exp (-mu)) := by
  have e : (ofInt k : XR) + 1 = fin ((k : ℝ) + 1) := by simp [ofInt]
  have hk0 : (0 : ℝ) < (k : ℝ) + 1 := by positivity
  have hk1 : (1 : ℝ) ≤ k := by exact_mod_cast hk
  have hL : Limits.double = .float ∨ Limits.double = .double ∨ Limits.double = .longDouble := Or.inr (Or.inl rfl)
  rcases le_or_gt 1 mu with h1 | h1
  · obtain ⟨q', e', hq'⟩ := lib_value h.le k
    rw [hq] at e'
    rw [(fin_inj _ _).1 e']
    have : Real.exp (-mu) ≤ Real.exp (-1) := Real.exp_le_exp.2 (by linarith)
    have h2 : Real.exp (-1) ≤ 1 / 2 := by
      rw [Real.exp_neg, inv_le_comm₀ (Real.exp_pos _) (by norm_num)]
      have := Real.add_one_le_exp (1 : ℝ)
      norm_num at this ⊢; linarith
    refine hq'.trans ?_
    nlinarith
  · rw [libGammaQ, e] at hq
    have hexp : mu / 2 ≤ 1 - Real.exp (-mu) := by
      have h3 : Real.exp (-mu) * (1 + mu) ≤ 1 := by
        have := Real.add_one_le_exp mu
        calc Real.exp (-mu) * (1 + mu) ≤ Real.exp (-mu) * Real.exp mu := mul_le_mul_of_nonneg_left (by linarith) (Real.exp_pos _).le
          _ = 1 := by rw [← Real.exp_add]; simp
      have h4 : Real.exp (-mu) ≤ 1 / (1 + mu) := by rwa [le_div_iff₀ (by linarith)]
      have h5 : 1 / (1 + mu) ≤ 1 - mu / 2 := by rw [div_le_iff₀ (by linarith)]; nlinarith
      linarith
    have hreg : Spec.regGamma ((k : ℝ) + 1) mu ≤ mu * mu := by
      refine (GammaAll.reg_le_rpow (by linarith) h.le).trans ?_
      rw [← pow_two, ← Real.rpow_natCast]
      exact Real.rpow_le_rpow_of_exponent_ge h h1.le (by push_cast; linarith)
    have hr0 := InvGamma.reg_nonneg hk0 h.le
    rw [← reg_poi h.le]
    rcases lt_or_ge mu (4 * Limits.double.epsilon) with h4 | h4
    · obtain ⟨h1', -⟩ := tiny_aux hL hk0 h.le h4
      rw [hq] at h1'
      rw [(fin_inj _ _).1 h1', sub_sub_cancel, abs_of_nonneg hr0]
      norm_num [Limits.double] at h4
      nlinarith
    · have hc : ¬Central .double ((k : ℝ) + 1) mu := by
        rintro ⟨c1, c2, -⟩
        norm_num [Limits.double] at c1
        linarith
      obtain ⟨y, -, h2', h0, hy1, hy2⟩ := C80_series_partial hL (gammaQAsympt .double) hk0 h4 (by linarith) hc
      rw [hq] at h2'
      rw [(fin_inj _ _).1 h2', show ∀ r : ℝ, 1 - y - (1 - r) = r - y from fun r => by ring, abs_of_nonneg (by linarith)]
      norm_num [Limits.double] at hy2
      nlinarith

end Trng.TailApprox
