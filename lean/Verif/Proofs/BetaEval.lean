import Verif.Proofs.BetaI
import Verif.Spec.Special
import Mathlib.Probability.Distributions.Beta

/-! `Beta_I` as a whole, and `Beta`. -/
namespace Trng.BetaSeries
open Set MeasureTheory XR Special

variable {x p q : ℝ}

theorem integrable_one (hp : 0 < p) (hq : 0 < q) :
    IntervalIntegrable (fun t : ℝ => t ^ (p - 1) * (1 - t) ^ (q - 1)) volume 0 1 := by
  have h1 := integrable (x := 1 / 2) (by norm_num) (by norm_num) hp (q := q)
  have h2 := (integrable (x := 1 / 2) (by norm_num) (by norm_num) hq (q := p)).comp_sub_left 1
  norm_num at h2
  refine h1.trans ?_
  refine (IntervalIntegrable.symm h2).congr ?_
  exact fun t _ => mul_comm _ _

theorem beta_eq (hp : 0 < p) (hq : 0 < q) : Spec.beta p q = Real.Gamma p * Real.Gamma q / Real.Gamma (p + q) := by
  have h := ProbabilityTheory.beta_eq_betaIntegralReal p q hp hq
  rw [ProbabilityTheory.beta] at h
  rw [h, Spec.beta, Complex.betaIntegral]
  have : (∫ t in (0 : ℝ)..1, (t : ℂ) ^ ((p : ℂ) - 1) * (1 - (t : ℂ)) ^ ((q : ℂ) - 1)) =
      ∫ t in (0 : ℝ)..1, ((t ^ (p - 1) * (1 - t) ^ (q - 1) : ℝ) : ℂ) := by
    refine intervalIntegral.integral_congr fun t ht => ?_
    rw [uIcc_of_le zero_le_one] at ht
    push_cast
    rw [Complex.ofReal_cpow ht.1, Complex.ofReal_cpow (by linarith [ht.2])]
    push_cast; rfl
  rw [this, intervalIntegral.integral_ofReal, Complex.ofReal_re]

theorem beta_pos (hp : 0 < p) (hq : 0 < q) : 0 < Spec.beta p q := by
  rw [beta_eq hp hq]
  exact div_pos (mul_pos (Real.Gamma_pos_of_pos hp) (Real.Gamma_pos_of_pos hq)) (Real.Gamma_pos_of_pos (by linarith))

theorem gamma_fin {x : ℝ} (h : 0 < x) : XR.gamma (fin x) = fin (Real.Gamma x) := by
  rw [XR.gamma, if_neg]
  rintro ⟨n, e⟩
  have : (0 : ℝ) ≤ n := n.cast_nonneg
  linarith

theorem lnGamma_fin {x : ℝ} (h : 0 < x) : lnGamma (fin x) = fin (Real.log (Real.Gamma x)) := by
  rw [lnGamma, if_neg, abs_of_pos (Real.Gamma_pos_of_pos h)]
  rintro ⟨n, e⟩
  have : (0 : ℝ) ≤ n := n.cast_nonneg
  linarith

theorem beta_fin (L : Limits) (hp : 0 < p) (hq : 0 < q) : Special.beta L (fin p) (fin q) = fin (Spec.beta p q) := by
  have hz : 0 < p + q := by linarith
  have g1 := Real.Gamma_pos_of_pos hp
  have g2 := Real.Gamma_pos_of_pos hq
  have g3 := Real.Gamma_pos_of_pos hz
  rw [Special.beta, if_neg (by simp only [ofNat_fin, fin_le, Nat.cast_zero]; push Not; exact ⟨hp, hq⟩), beta_eq hp hq]
  simp only [fin_add, lnGamma_fin hp, lnGamma_fin hq, lnGamma_fin hz, gamma_fin hp, gamma_fin hq, gamma_fin hz, fin_sub, exp_fin,
    fin_div g3.ne', fin_mul]
  split_ifs
  · rw [Real.exp_sub, Real.exp_add, Real.exp_log g1, Real.exp_log g2, Real.exp_log g3]
  · congr 1; ring

/-- Reflection of the incomplete Beta function. -/
theorem Bx_reflect (hx : 0 ≤ x) (hx1 : x ≤ 1) (hp : 0 < p) (hq : 0 < q) :
    (∫ t in (0 : ℝ)..x, t ^ (p - 1) * (1 - t) ^ (q - 1)) = Spec.beta p q - Bx (1 - x) q p := by
  have hI := integrable_one hp hq
  have h1 : IntervalIntegrable (fun t : ℝ => t ^ (p - 1) * (1 - t) ^ (q - 1)) volume 0 x :=
    hI.mono_set (by rw [uIcc_of_le hx, uIcc_of_le zero_le_one]; exact Icc_subset_Icc_right hx1)
  have h2 : IntervalIntegrable (fun t : ℝ => t ^ (p - 1) * (1 - t) ^ (q - 1)) volume x 1 :=
    hI.mono_set (by rw [uIcc_of_le hx1, uIcc_of_le zero_le_one]; exact Icc_subset_Icc_left hx)
  have e := intervalIntegral.integral_add_adjacent_intervals h1 h2
  have e2 : (∫ t in x..1, t ^ (p - 1) * (1 - t) ^ (q - 1)) = Bx (1 - x) q p := by
    have := intervalIntegral.integral_comp_sub_left (fun t : ℝ => t ^ (q - 1) * (1 - t) ^ (p - 1)) (1 : ℝ) (a := x) (b := 1)
    rw [sub_self] at this
    rw [Bx, ← this]
    refine intervalIntegral.integral_congr fun t _ => ?_
    simp only [sub_sub_cancel]; ring
  rw [e2] at e
  rw [Spec.beta]; linarith

theorem regBeta_reflect (hx : 0 ≤ x) (hx1 : x ≤ 1) (hp : 0 < p) (hq : 0 < q) :
    Spec.regBeta x p q = 1 - Spec.regBeta (1 - x) q p := by
  have hb := beta_pos hp hq
  have hs : Spec.beta q p = Spec.beta p q := by rw [beta_eq hp hq, beta_eq hq hp, add_comm q p]; ring
  rw [Spec.regBeta, Bx_reflect hx hx1 hp hq, Spec.regBeta, hs, sub_div, div_self hb.ne', Bx]

/-- The loop from the beginning. -/
theorem betaSeries_fin {L : Limits} {M N : ℝ} (he : 2⁻¹ ^ 63 ≤ L.epsilon) (he1 : L.epsilon ≤ 4⁻¹) (h0 : 0 < x) (hp : 0 < p) (hq : 0 < q)
    (hx : (p + q) * x ≤ p) (hr : p + q ≤ 2 ^ 24 * q) (hpq : p + q < 2 ^ 30) (hM : p ≤ M) (hM2 : p / q ≤ M) (hN : 0 < N) :
    ∃ y : ℝ, betaSeries L (fin x) (fin (1 - x)) (fin p) (fin q) (fin (p + q)) (fin N) = some (fin y) ∧
      |y - Bx x p q / N| ≤ 4 * L.epsilon * M * y := by
  have hx1 : x < 1 := by
    by_contra h; push Not at h; nlinarith
  have h1 : 0 < 1 - x := by linarith
  have hb : 0 < L.epsilon := lt_of_lt_of_le (by positivity) he
  have hM3 : x / (1 - x) ≤ M := by
    refine le_trans ?_ hM2
    rw [div_le_div_iff₀ h1 hq]; nlinarith
  have hu : (2⁻¹ : ℝ) ^ 24 ≤ 1 - x := by
    have : q ≤ (p + q) * (1 - x) := by linarith
    have h3 : (p + q) * (1 - x) ≤ 2 ^ 24 * q * (1 - x) := mul_le_mul_of_nonneg_right hr h1.le
    have h4 : q * 1 ≤ q * (2 ^ 24 * (1 - x)) := by linarith
    have := le_of_mul_le_mul_left h4 hq
    norm_num at this ⊢; linarith
  obtain ⟨m, hm⟩ : ∃ m : ℕ, m + 1 = 2 ^ 31 := ⟨2 ^ 31 - 1, by norm_num⟩
  have hm1 : (m : ℝ) + 1 = 2 ^ 31 := by exact_mod_cast hm
  have hxm : x ^ m ≤ 4 * L.epsilon * (1 - x) ^ 2 := by
    have a : x ≤ Real.exp (-(1 - x)) := by have := Real.add_one_le_exp (-(1 - x)); linarith
    have b : x ^ m ≤ Real.exp (-(127 : ℕ)) := by
      refine (pow_le_pow_left₀ h0.le a m).trans ?_
      rw [← Real.exp_nat_mul]
      refine Real.exp_le_exp.2 ?_
      have : (127 : ℝ) ≤ m * (1 - x) := by
        have h5 : (127 : ℝ) ≤ m * 2⁻¹ ^ 24 := by
          have : (m : ℝ) = 2 ^ 31 - 1 := by linarith
          rw [this]; norm_num
        exact h5.trans (mul_le_mul_of_nonneg_left hu m.cast_nonneg)
      push_cast; linarith
    have c : Real.exp (-(127 : ℕ)) ≤ 2⁻¹ ^ 127 := by
      rw [Real.exp_neg, inv_pow]
      refine inv_anti₀ (by positivity) ?_
      rw [show ((127 : ℕ) : ℝ) = (127 : ℕ) * 1 by simp, Real.exp_nat_mul]
      refine pow_le_pow_left₀ (by norm_num) ?_ _
      have := Real.add_one_le_exp (1 : ℝ); linarith
    have d : (2⁻¹ : ℝ) ^ 127 ≤ 4 * 2⁻¹ ^ 63 * (2⁻¹ ^ 24) ^ 2 := by norm_num
    refine b.trans (c.trans (d.trans ?_))
    have := pow_le_pow_left₀ (by positivity) hu 2
    exact mul_le_mul (by linarith) this (by positivity) (by positivity)
  set W := q + (1 - x) * (p + q) with hW
  have hW0 : 0 ≤ W := by positivity
  obtain ⟨n, hn⟩ := Int.eq_ofNat_of_zero_le (Int.floor_nonneg.2 hW0)
  have hn1 : (n : ℝ) ≤ W := by
    have := Int.floor_le W; rw [hn] at this; exact_mod_cast this
  have hn2 : W < n + 1 := by
    have := Int.lt_floor_add_one W; rw [hn] at this; exact_mod_cast this
  have hWlt : W < 2 ^ 31 := by
    have : (1 - x) * (p + q) ≤ p + q := by nlinarith
    have : (2 : ℝ) ^ 31 = 2 ^ 30 + 2 ^ 30 := by norm_num
    linarith
  have hnlt : n < 2 ^ 31 := by
    have : (n : ℝ) < 2 ^ 31 := by linarith
    exact_mod_cast this
  have hI : toInt (fin W) = some (n : ℤ) := by
    simp only [toInt]
    rw [if_pos hW0, hn, if_pos ⟨by omega, by push_cast; omega⟩]
  obtain ⟨F, hF⟩ : ∃ F : ℕ, F = 2 ^ 33 := ⟨_, rfl⟩
  obtain ⟨y, hy, hyt⟩ := stage1 (eps := 4 * L.epsilon) (M := M) (m := m) h0 hx1 hp hq hx (by linarith) (by linarith) hxm hm.le hM hM3 n F
    (by
      have : (2 : ℕ) ^ 33 = 2 ^ 31 + 2 ^ 31 + 2 ^ 32 := by norm_num
      omega) 1 1 1 le_rfl (by linarith) (by linarith) (by rw [total]; ring) (by norm_num)
  have hA : Real.exp (p * Real.log x + (q - 1) * Real.log (1 - x)) = x ^ p * (1 - x) ^ (q - 1) := by
    rw [Real.exp_add, Real.rpow_def_of_pos h0, Real.rpow_def_of_pos h1]; ring_nf
  refine ⟨y * (x ^ p * (1 - x) ^ (q - 1) / p / N), ?_, ?_⟩
  · rw [betaSeries, ← hF]
    simp only [ofNat_fin, fin_mul, fin_add, fin_sub, fin_div h1.ne', ln_fin h0, ln_fin h1, exp_fin, fin_div hp.ne', fin_div hN.ne', hA, Nat.cast_one,
      Nat.cast_ofNat]
    rw [hI, Option.bind_some]
    have : (if (n : ℤ) = 0 then fin x else fin (x / (1 - x))) = fin (if (n : ℤ) = 0 then x else x / (1 - x)) := by split_ifs <;> rfl
    rw [this, hy]
    simp
  · have hd := denom_pos h0 hx1 p (q - 1)
    have e : Bx x p q / N = total x p q * (x ^ p * (1 - x) ^ (q - 1) / p / N) := by
      rw [← total_eq h0 hx1 hp]; ring
    have hpos : 0 < x ^ p * (1 - x) ^ (q - 1) / p / N := by positivity
    rw [e, ← sub_mul, abs_mul, abs_of_pos hpos]
    calc |y - total x p q| * (x ^ p * (1 - x) ^ (q - 1) / p / N) ≤ (M * (4 * L.epsilon * y)) * (x ^ p * (1 - x) ^ (q - 1) / p / N) :=
          mul_le_mul_of_nonneg_right hyt hpos.le
      _ = _ := by ring

theorem betaSeries_zero {L : Limits} {N : ℝ} (he : 0 < L.epsilon) (hp : 0 < p) (hq : 0 < q) (hpq : p + q < 2 ^ 30) (hN : 0 < N) :
    betaSeries L (fin 0) (fin 1) (fin p) (fin q) (fin (p + q)) (fin N) = some (fin 0) := by
  set W := q + 1 * (p + q) with hW
  have hW0 : 0 ≤ W := by positivity
  have hWlt : W < 2 ^ 31 := by
    have : (2 : ℝ) ^ 31 = 2 ^ 30 + 2 ^ 30 := by norm_num
    linarith
  have hI : toInt (fin W) = some ⌊W⌋ := by
    simp only [toInt]
    have h1 := Int.floor_nonneg.2 hW0
    have h2 : ⌊W⌋ < 2 ^ 31 := Int.floor_lt.2 (by push_cast; linarith [(by norm_num : (2:ℝ)^31 = 2147483648)])
    rw [if_pos hW0, if_pos ⟨by omega, h2⟩]
  obtain ⟨F, hF⟩ : ∃ F : ℕ, F + 1 = 2 ^ 33 := ⟨2 ^ 33 - 1, by norm_num⟩
  rw [betaSeries, ← hF]
  simp only [ofNat_fin, fin_mul, fin_add, fin_sub, fin_div one_ne_zero, ln_fin one_pos, Nat.cast_one, Nat.cast_ofNat, Real.log_one, mul_zero]
  rw [hI, Option.bind_some]
  have : (if ⌊W⌋ = 0 then fin 0 else fin (0 / 1)) = fin 0 := by split_ifs <;> simp
  rw [this, betaLoop_step (by linarith), if_pos (by simp; positivity)]
  have hl : ln (fin 0) = ninf := by simp [ln]
  have hm : fin p * ninf = ninf := by
    show infSign (-p) = ninf
    rw [infSign, if_neg (by linarith), if_pos (by linarith)]
  rw [hl, hm]
  have : ninf + fin 0 = ninf := rfl
  simp only [this, XR.exp, fin_div hp.ne', fin_div hN.ne', Option.map_some, fin_mul]
  simp

theorem regBeta_nonneg (hx : 0 ≤ x) (hx1 : x ≤ 1) (hp : 0 < p) (hq : 0 < q) : 0 ≤ Spec.regBeta x p q := by
  refine div_nonneg (intervalIntegral.integral_nonneg hx fun t ht => ?_) (beta_pos hp hq).le
  exact mul_nonneg (Real.rpow_nonneg ht.1 _) (Real.rpow_nonneg (by linarith [ht.2]) _)

theorem regBeta_le_one (hx : 0 ≤ x) (hx1 : x ≤ 1) (hp : 0 < p) (hq : 0 < q) : Spec.regBeta x p q ≤ 1 := by
  have := regBeta_nonneg (x := 1 - x) (by linarith) (by linarith) hq hp
  rw [regBeta_reflect hx hx1 hp hq]; linarith

/-- `Beta_I` with the correct norm. -/
theorem betaI_fin {L : Limits} {M : ℝ} (he : 2⁻¹ ^ 63 ≤ L.epsilon) (hx : 0 ≤ x) (hx1 : x ≤ 1) (hp : 0 < p) (hq : 0 < q)
    (hr : p + q ≤ 2 ^ 24 * p) (hr' : p + q ≤ 2 ^ 24 * q) (hpq : p + q < 2 ^ 30)
    (h1 : p ≤ M) (h2 : q ≤ M) (h3 : p / q ≤ M) (h4 : q / p ≤ M) (hM : 8 * L.epsilon * M ≤ 1) :
    ∃ y : ℝ, betaI L (fin x) (fin p) (fin q) (fin (Spec.beta p q)) = some (fin y) ∧
      |y - Spec.regBeta x p q| ≤ 8 * L.epsilon * M * (if p < (p + q) * x then 1 - Spec.regBeta x p q else Spec.regBeta x p q) := by
  have hb : 0 < L.epsilon := lt_of_lt_of_le (by positivity) he
  have hN := beta_pos hp hq
  have hs : Spec.beta q p = Spec.beta p q := by rw [beta_eq hp hq, beta_eq hq hp, add_comm q p]; ring
  have hM1 : 1 ≤ M := by
    rcases le_total p q with h | h
    · exact le_trans ((one_le_div hp).2 h) h4
    · exact le_trans ((one_le_div hq).2 h) h3
  have he4 : L.epsilon ≤ 4⁻¹ := by nlinarith
  have conv : ∀ y I : ℝ, 0 ≤ I → |y - I| ≤ 4 * L.epsilon * M * y → |y - I| ≤ 8 * L.epsilon * M * I := by
    intro y I hI h
    set d := 4 * L.epsilon * M with hd
    have hd0 : 0 < d := by positivity
    have hd1 : 2 * d ≤ 1 := by rw [hd]; linarith
    have h5 := (abs_le.1 h).2
    rw [show 8 * L.epsilon * M = 2 * d by rw [hd]; ring]
    refine h.trans ?_
    have hy0 : 0 ≤ y := by
      by_contra hn
      push Not at hn
      have := (abs_nonneg _).trans h
      nlinarith
    have h6 : y ≤ 2 * I := by nlinarith
    nlinarith
  rw [betaI, if_neg (by simp only [ofNat_fin, fin_le, fin_lt, Nat.cast_zero, Nat.cast_one]; push Not; exact ⟨hp, hq, hx, hx1⟩)]
  simp only [ofNat_fin, fin_add, fin_mul, fin_lt, fin_sub, Nat.cast_one]
  by_cases hc : p < (p + q) * x
  · rw [if_pos hc, if_pos hc]
    have hrefl := regBeta_reflect hx hx1 hp hq
    rcases eq_or_lt_of_le hx1 with e | hlt
    · subst e
      rw [sub_self, add_comm p q, betaSeries_zero hb hq hp (by linarith) hN]
      refine ⟨1, by simp, ?_⟩
      have : Spec.regBeta 1 p q = 1 := by rw [hrefl, sub_self, Spec.regBeta, intervalIntegral.integral_same, zero_div, sub_zero]
      rw [this]; simp
    · obtain ⟨y, ey, hy⟩ := betaSeries_fin (L := L) (x := 1 - x) (p := q) (q := p) (M := M) (N := Spec.beta p q) he he4 (by linarith) hq hp
        (by linarith) (by linarith) (by linarith) h2 h4 hN
      rw [sub_sub_cancel, add_comm q p] at ey
      rw [ey]
      refine ⟨1 - y, by simp, ?_⟩
      have e : Bx (1 - x) q p / Spec.beta p q = Spec.regBeta (1 - x) q p := by rw [Spec.regBeta, hs, Bx]
      rw [e] at hy
      have := conv y _ (regBeta_nonneg (by linarith) (by linarith) hq hp) hy
      rw [hrefl, sub_sub_cancel]
      rwa [show 1 - y - (1 - Spec.regBeta (1 - x) q p) = -(y - Spec.regBeta (1 - x) q p) by ring, abs_neg]
  · rw [if_neg hc, if_neg hc]
    push Not at hc
    rcases eq_or_lt_of_le hx with e | hlt
    · subst e
      rw [sub_zero, betaSeries_zero hb hp hq hpq hN]
      refine ⟨0, rfl, ?_⟩
      rw [Spec.regBeta, intervalIntegral.integral_same]; simp
    · obtain ⟨y, ey, hy⟩ := betaSeries_fin (L := L) (M := M) (N := Spec.beta p q) he he4 hlt hp hq hc hr' hpq h1 h3 hN
      refine ⟨y, ey, ?_⟩
      exact conv y _ (regBeta_nonneg hx hx1 hp hq) hy

end Trng.BetaSeries
