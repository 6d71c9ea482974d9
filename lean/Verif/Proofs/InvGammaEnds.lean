import Verif.Proofs.InvGamma
import Verif.Proofs.GammaFormats
import Verif.Proofs.Continuous

/-! The solution of `GammaP(a, x) = p`, and what `inv_GammaP` does for very small `p`. -/
namespace Trng.InvGamma
open Set MeasureTheory XR Special BetaSeries GammaSeries GammaFraction Filter Topology

variable {a x p : ℝ}

theorem reg_zero (a : ℝ) : Spec.regGamma a 0 = 0 := by rw [Spec.regGamma, Spec.lowerGamma, intervalIntegral.integral_same, zero_div]

theorem reg_nonneg (ha : 0 < a) (hx : 0 ≤ x) : 0 ≤ Spec.regGamma a x := by
  rw [regGamma_eq ha]; exact div_nonneg (lower_nonneg a hx) (Real.Gamma_pos_of_pos ha).le

theorem reg_lt_one (ha : 0 < a) (hx : 0 ≤ x) : Spec.regGamma a x < 1 := by
  rcases hx.eq_or_lt with h | h
  · rw [← h, reg_zero]; exact one_pos
  · have hG := Real.Gamma_pos_of_pos ha
    rw [regGamma_eq ha, div_lt_one hG, ← complement ha hx]
    have := K_pos ha h 0; linarith

theorem reg_continuous (ha : 0 < a) : ContinuousOn (Spec.regGamma a) (Ici 0) := by
  have h1 : Continuous fun x => Spec.lowerGamma a x := by
    refine intervalIntegral.continuous_primitive (fun b c => ?_) 0
    exact ((integrable ha b).symm.trans (integrable ha c))
  exact (h1.div_const _).continuousOn

theorem reg_tendsto (ha : 0 < a) : Tendsto (Spec.regGamma a) atTop (𝓝 1) := by
  have h1 : IntegrableOn (fun t : ℝ => t ^ (a - 1) * Real.exp (-t)) (Ioi 0) := by
    have := Real.GammaIntegral_convergent ha
    simpa only [mul_comm] using this
  have h2 := intervalIntegral_tendsto_integral_Ioi 0 h1 tendsto_id
  have hG : (∫ t in Ioi (0 : ℝ), t ^ (a - 1) * Real.exp (-t)) ≠ 0 := by
    have := Real.Gamma_pos_of_pos ha
    rw [Real.Gamma_eq_integral ha] at this
    simp only [mul_comm (Real.exp _)] at this
    exact this.ne'
  have h3 := h2.div_const (∫ t in Ioi (0 : ℝ), t ^ (a - 1) * Real.exp (-t))
  rw [div_self hG] at h3
  exact h3

theorem reg_mono (ha : 0 < a) : MonotoneOn (Spec.regGamma a) (Ici 0) := by
  intro x hx y hy h
  rcases eq_or_lt_of_le (show (0 : ℝ) ≤ x from hx) with h0 | h0
  · rw [← h0, reg_zero]; exact reg_nonneg ha hy
  · exact (P_strictMono ha).monotoneOn h0 (h0.trans_le h) h

/-- Every probability has its quantile. -/
theorem root (ha : 0 < a) (hp : 0 < p) (hp1 : p < 1) : ∃ r, 0 < r ∧ Spec.regGamma a r = p := by
  obtain ⟨b, hb, hb0⟩ := ((reg_tendsto ha).eventually (eventually_gt_nhds hp1)).and (eventually_ge_atTop 0) |>.exists
  obtain ⟨r, hr, e⟩ := intermediate_value_Icc hb0 ((reg_continuous ha).mono Icc_subset_Ici_self) (show p ∈ Icc (Spec.regGamma a 0) (Spec.regGamma a b) from ⟨by rw [reg_zero]; exact hp.le, hb.le⟩)
  refine ⟨r, lt_of_le_of_ne hr.1 fun h => ?_, e⟩
  rw [← h, reg_zero] at e; exact hp.ne e

/-! ### Small probabilities -/

theorem reg_two_le (hx : 0 < x) (hx1 : x ≤ 1 / 10) : Spec.regGamma 2 x ≤ x ^ 2 * Real.exp (-x) * (10 / 19) := by
  have h := lower_le (a := 2) (x := x) (by norm_num) hx.le (by linarith)
  rw [regGamma_eq (by norm_num), Real.Gamma_two, div_one]
  refine h.trans ?_
  rw [show x ^ (2 : ℝ) = x ^ 2 from by exact_mod_cast Real.rpow_natCast x 2, div_le_iff₀ (by linarith)]
  have : 0 ≤ x ^ 2 * Real.exp (-x) := by positivity
  nlinarith

theorem reg_two_ge (hx : 0 < x) : x ^ 2 * Real.exp (-x) / 2 ≤ Spec.regGamma 2 x := by
  have h := lower_ge (a := 2) (x := x) (by norm_num) hx.le
  rw [regGamma_eq (by norm_num), Real.Gamma_two, div_one]
  rwa [show x ^ (2 : ℝ) = x ^ 2 from by exact_mod_cast Real.rpow_natCast x 2] at h

/-- For `a = 2` a step to the left leaves a quarter of the number. -/
theorem two_step (hp : 0 < p) (hx : 0 < x) (hx1 : x ≤ 1 / 10) : x / 4 ≤ nxt (Spec.regGamma 2) 2 p x := by
  have hw := w_pos 2 x
  have he : w 2 x = x * Real.exp (-x) := by
    rw [w_eq (by norm_num) hx, Real.Gamma_two, show (2 : ℝ) - 1 = 1 by norm_num, Real.rpow_one, div_one]
  have hexp := Real.exp_pos (-x)
  have hu : (Spec.regGamma 2 x - p) / w 2 x ≤ 10 / 19 * x := by
    rw [div_le_iff₀ hw, he]
    have := reg_two_le hx hx1
    nlinarith
  set u := (Spec.regGamma 2 x - p) / w 2 x with hud
  have hst : step 2 p (Spec.regGamma 2 x) x ≤ 3 / 4 * x := by
    rw [step, ← hud, div_le_iff₀ (den_pos _)]
    rcases le_or_gt u 0 with h0 | h0
    · exact h0.trans (mul_nonneg (by positivity) (den_pos _).le)
    · have h1 : u * h 2 x ≤ 10 / 19 := by
        have h2 : h 2 x ≤ 1 / x := by rw [h]; have : (2 - 1 : ℝ) / x = 1 / x := by norm_num
                                      linarith
        have h3 : u * h 2 x ≤ u * (1 / x) := mul_le_mul_of_nonneg_left h2 h0.le
        have h4 : u * (1 / x) ≤ 10 / 19 := by rw [mul_one_div, div_le_iff₀ hx]; exact hu
        linarith
      have h2 := min_le_right 1 (u * h 2 x)
      have h3 : 14 / 19 ≤ 1 - min 1 (u * h 2 x) / 2 := by linarith
      nlinarith
  rw [nxt]; split_ifs with hc <;> linarith

theorem two_seq (hp : 0 < p) (hp1 : p < 1) (hx : 0 < x) (hx1 : x ≤ 1 / 10) (hr : p ≤ Spec.regGamma 2 x) (n : ℕ) :
    x / 4 ^ n ≤ InvGamma.seq (Spec.regGamma 2) 2 p x n ∧ InvGamma.seq (Spec.regGamma 2) 2 p x n ≤ x := by
  obtain ⟨r, hr0, e⟩ := root (a := 2) (by norm_num) hp hp1
  have hrx : r ≤ x := by rw [← e] at hr; exact ((P_strictMono (by norm_num)).le_iff_le hr0 hx).1 hr
  refine ⟨?_, ((seq_between (by norm_num) hr0 e hx n).1 hrx).2⟩
  induction n with
  | zero => simp [InvGamma.seq]
  | succ n ih =>
    have h1 := ((seq_between (a := 2) (by norm_num) hr0 e hx n).1 hrx).2
    have h2 := two_step hp (seq_pos (Spec.regGamma 2) 2 p hx n) (h1.trans hx1)
    rw [InvGamma.seq, pow_succ, ← div_div]
    linarith

/-- The start of the iteration for `inv_GammaP(2, 2^-1000)`. -/
theorem guess_tiny : invGammaGuess (fin 2) (fin (1 / 2 ^ 1000)) = fin (1 / 1000) := by
  have hp0 : (0 : ℝ) < 1 / 2 ^ 1000 := by positivity
  have hp2 : (1 : ℝ) / 2 ^ 1000 < 1 / 2 := one_div_lt_one_div_of_lt (by norm_num) (by
    calc (2 : ℝ) < 2 ^ 2 := by norm_num
      _ ≤ 2 ^ 1000 := pow_le_pow_right₀ (by norm_num) (by norm_num))
  have hlog : Real.log (1 / 2 ^ 1000) = -(1000 * Real.log 2) := by rw [one_div, Real.log_inv, Real.log_pow]; push_cast; ring
  have hl2 : 1 / 2 ≤ Real.log 2 := by
    have := Real.log_le_sub_one_of_pos (show (0 : ℝ) < 1 / 2 by norm_num)
    rw [one_div, Real.log_inv] at this; linarith
  generalize hP : (1 : ℝ) / 2 ^ 1000 = P at *
  have h12 : (1 / 2 : XR) = fin (1 / 2) := by simp only [ofNat_fin, Nat.cast_one, Nat.cast_ofNat]; exact fin_div (by norm_num)
  have h12' : fin P < 1 / 2 := by rw [h12, fin_lt]; exact hp2
  rw [invGammaGuess, if_pos (by rw [ofNat_fin, fin_lt]; norm_num)]
  simp only [if_pos h12', ln_fin hp0]
  have e2 : (-2 * fin (Real.log P) : XR) = fin (2000 * Real.log 2) := by
    rw [show (-2 : XR) = -(2 : XR) from rfl, ofNat_fin, neg_fin, fin_mul, hlog]; congr 1; push_cast; ring
  rw [e2, sqrt_fin (by linarith)]
  have ht : 30 ≤ Real.sqrt (2000 * Real.log 2) := by
    rw [Real.le_sqrt (by norm_num) (by linarith)]; linarith
  generalize Real.sqrt (2000 * Real.log 2) = t at *
  have hden : (0 : ℝ) < 1 + t * (0.99229 + t * 0.04481) := by positivity
  simp only [ofNat_fin, Nat.cast_one, Nat.cast_ofNat, fin_mul, fin_add]
  rw [fin_div hden.ne', fin_sub, neg_fin, fin_div (show (9 * 2 : ℝ) ≠ 0 by norm_num), fin_sub, sqrt_fin (by norm_num), fin_mul,
    fin_div (by have := Real.sqrt_pos.2 (show (0 : ℝ) < 2 by norm_num); linarith : 3 * Real.sqrt 2 ≠ 0), fin_sub]
  set z := 1 - 1 / (9 * 2) - -((2.30753 + t * 0.27061) / (1 + t * (0.99229 + t * 0.04481)) - t) / (3 * Real.sqrt 2) with hz
  have hz0 : z ≤ 0 := by
    have h1 : (2.30753 + t * 0.27061) / (1 + t * (0.99229 + t * 0.04481)) ≤ 1 := by
      rw [div_le_one hden]; nlinarith
    have h2 : 0 < Real.sqrt 2 := Real.sqrt_pos.2 (by norm_num)
    have h3 : Real.sqrt 2 ≤ 2 := by rw [Real.sqrt_le_left (by norm_num)]; norm_num
    have h4 : 1 ≤ -((2.30753 + t * 0.27061) / (1 + t * (0.99229 + t * 0.04481)) - t) / (3 * Real.sqrt 2) := by
      rw [le_div_iff₀ (by positivity)]; linarith
    rw [hz]; linarith
  have hp3 := pow3 z
  simp only [ofNat_fin, Nat.cast_ofNat] at hp3
  rw [hp3, fin_mul, fin_div (by norm_num), umax, if_pos]
  rw [fin_le]
  have : z ^ 3 ≤ 0 := Odd.pow_nonpos (by decide) hz0
  linarith

/-- The result of `inv_GammaP(2, 2^-1000)` is much too large. -/
theorem tiny {GP : XR → XR → XR} (hGP : ∀ x : ℝ, 0 < x → GP (fin 2) (fin x) = fin (Spec.regGamma 2 x)) :
    ∃ y : ℝ, invGammaP .double GP (fin 2) (fin (1 / 2 ^ 1000)) = fin y ∧ 2 ^ 750 * (1 / 2 ^ 1000) ≤ Spec.regGamma 2 y := by
  have hp0 : (0 : ℝ) < 1 / 2 ^ 1000 := by positivity
  have hpow : (2 : ℝ) ^ 1000 = 2 ^ 750 * 2 ^ 250 := by rw [← pow_add]
  have hp1 : (1 : ℝ) / 2 ^ 1000 < 1 := by
    rw [div_lt_one (by positivity)]; exact one_lt_pow₀ (by norm_num) (by norm_num)
  have hsm : (1 : ℝ) / 2 ^ 1000 ≤ 1 / 2 ^ 250 := one_div_le_one_div_of_le (by positivity) (pow_le_pow_right₀ (by norm_num) (by norm_num))
  have hb : ∀ y : ℝ, (1 / 1000) / 4 ^ 53 ≤ y → y ≤ 1 / 1000 → (1 : ℝ) / 2 ^ 250 ≤ Spec.regGamma 2 y := by
    intro y h1 h2
    have hy : 0 < y := lt_of_lt_of_le (by norm_num) h1
    refine le_trans ?_ (reg_two_ge hy)
    have h3 : 1 / 2 ≤ Real.exp (-y) := by have := Real.add_one_le_exp (-y); linarith
    have h4 : ((1 / 1000) / 4 ^ 53) ^ 2 ≤ y ^ 2 := pow_le_pow_left₀ (by norm_num) h1 2
    calc (1 : ℝ) / 2 ^ 250 ≤ ((1 / 1000) / 4 ^ 53) ^ 2 * (1 / 2) / 2 := by norm_num
      _ ≤ _ := by
        have := mul_le_mul h4 h3 (by norm_num) (by positivity)
        linarith
  have hq : 2 ^ 750 * (1 / 2 ^ 1000) = (1 : ℝ) / 2 ^ 250 := by
    rw [hpow]; field_simp
  rw [hq]
  have hstart : (1 : ℝ) / 2 ^ 1000 ≤ Spec.regGamma 2 (1 / 1000) := hsm.trans (hb _ (by norm_num) le_rfl)
  obtain ⟨x, e, hx, -, m, hm, e2, -⟩ := inv_seq .double (a := 2) (p := 1 / 2 ^ 1000) (by norm_num) hp0 hp1 (by rw [GammaFormats.double_eps]; norm_num) hGP
  rw [guess_tiny] at e
  have hx' : 1 / 1000 = x := (fin_inj _ _).1 e
  subst hx'
  have h := two_seq hp0 hp1 (x := 1 / 1000) (by norm_num) (by norm_num) hstart m
  refine ⟨_, e2, hb _ (le_trans ?_ h.1) h.2⟩
  exact div_le_div_of_nonneg_left (by norm_num) (by positivity) (pow_le_pow_right₀ (by norm_num) hm)

/-! ### The probability 0 -/

theorem loop_nan (L : Limits) (GP : XR → XR → XR) (a p glna lna1 afac : XR) (n : ℕ) : invGammaLoop L GP a p glna lna1 afac n nan = nan := by
  induction n with
  | zero => rfl
  | succ n ih =>
    rw [invGammaLoop]
    simp only [not_nan_le, if_false, nan_sub, not_lt_nan, mul_nan]
    exact ih

theorem zero_nan (L : Limits) (GP : XR → XR → XR) (ha : 1 < a) : invGammaP L GP (fin a) (fin 0) = nan := by
  have hg : invGammaGuess (fin a) (fin 0) = nan := by
    have h12 : (1 / 2 : XR) = fin (1 / 2) := by simp only [ofNat_fin, Nat.cast_one, Nat.cast_ofNat]; exact fin_div (by norm_num)
    rw [invGammaGuess, if_pos (by rw [ofNat_fin, fin_lt]; push_cast; exact ha)]
    have h0 : fin 0 < 1 / 2 := by rw [h12, fin_lt]; norm_num
    simp only [if_pos h0, ln_zero']
    have e : (-2 * ninf : XR) = pinf := by
      rw [show (-2 : XR) = -(2 : XR) from rfl, ofNat_fin, neg_fin, fin_mul_ninf, infSign_pos (by norm_num)]
    rw [e, sqrt_pinf, pinf_mul_fin, infSign_pos (by norm_num), pinf_mul_fin, infSign_pos (by norm_num), fin_add_pinf, fin_add_pinf]
    have e1 : (pinf * pinf : XR) = pinf := rfl
    have e2 : (pinf / pinf : XR) = nan := rfl
    rw [e1]
    simp only [ofNat_fin, fin_add_pinf, e2, nan_sub, neg_nan, nan_div, sub_nan, Nat.cast_ofNat]
    rw [pow_nan (by norm_num), mul_nan, umax, if_neg (not_nan_le _)]
  rw [invGammaP, hg]; exact loop_nan ..

end Trng.InvGamma
