import Verif.Model.Special
import Verif.Spec.Special
import Verif.Proofs.BetaEval
import Mathlib.Analysis.SpecialFunctions.Gamma.BohrMollerup

/-! The series of the incomplete Gamma function: what is left after each turn of the loop is an integral. -/
namespace Trng.GammaSeries
open Set MeasureTheory XR Special BetaSeries

variable {a x : ℝ}

theorem integrable (ha : 0 < a) (x : ℝ) : IntervalIntegrable (fun t : ℝ => t ^ (a - 1) * Real.exp (-t)) volume 0 x :=
  (intervalIntegral.intervalIntegrable_rpow' (by linarith)).mul_continuousOn (by fun_prop)

/-- Integration by parts. -/
theorem ibp (ha : 0 < a) (hx : 0 ≤ x) : a * Spec.lowerGamma a x = x ^ a * Real.exp (-x) + Spec.lowerGamma (a + 1) x := by
  have hd : ∀ t ∈ Ioo 0 x, HasDerivAt (fun t : ℝ => t ^ a * Real.exp (-t))
      (a * (t ^ (a - 1) * Real.exp (-t)) - t ^ (a + 1 - 1) * Real.exp (-t)) t := by
    intro t ht
    have h := Real.hasDerivAt_rpow_const (x := t) (p := a) (Or.inl ht.1.ne')
    have b := (hasDerivAt_neg t).exp
    refine (h.mul b).congr_deriv ?_
    rw [show a + 1 - 1 = a by ring]; ring
  have hc : ContinuousOn (fun t : ℝ => t ^ a * Real.exp (-t)) (Icc 0 x) :=
    (Real.continuous_rpow_const ha.le).continuousOn.mul (by fun_prop)
  have hi := (integrable ha x).const_mul a
  have hj := integrable (by linarith : 0 < a + 1) x
  have e := intervalIntegral.integral_eq_sub_of_hasDerivAt_of_le hx hc hd (hi.sub hj)
  rw [intervalIntegral.integral_sub hi hj, intervalIntegral.integral_const_mul, Real.zero_rpow ha.ne', zero_mul, sub_zero] at e
  simp only [Spec.lowerGamma]; linarith

theorem lower_nonneg (a : ℝ) (hx : 0 ≤ x) : 0 ≤ Spec.lowerGamma a x :=
  intervalIntegral.integral_nonneg hx fun _ ht => mul_nonneg (Real.rpow_nonneg ht.1 _) (Real.exp_pos _).le

theorem lower_succ_le (ha : 0 < a) (hx : 0 ≤ x) : Spec.lowerGamma (a + 1) x ≤ x * Spec.lowerGamma a x := by
  rw [Spec.lowerGamma, Spec.lowerGamma, ← intervalIntegral.integral_const_mul]
  refine intervalIntegral.integral_mono_on hx (integrable (by linarith) x) ((integrable ha x).const_mul x) fun t ht => ?_
  rcases eq_or_lt_of_le ht.1 with e | h
  · rw [← e, show a + 1 - 1 = a by ring, Real.zero_rpow ha.ne', zero_mul]
    exact mul_nonneg hx (mul_nonneg (Real.rpow_nonneg le_rfl _) (Real.exp_pos _).le)
  · rw [show a + 1 - 1 = a - 1 + 1 by ring, Real.rpow_add_one h.ne', mul_comm (t ^ (a - 1)) t, mul_assoc]
    exact mul_le_mul_of_nonneg_right ht.2 (mul_nonneg (Real.rpow_nonneg h.le _) (Real.exp_pos _).le)

theorem lower_le (ha : 0 < a) (hx : 0 ≤ x) (hxa : x < a) : Spec.lowerGamma a x ≤ x ^ a * Real.exp (-x) / (a - x) := by
  rw [le_div_iff₀ (by linarith)]
  have := ibp ha hx
  have := lower_succ_le ha hx
  linarith

theorem lower_ge (ha : 0 < a) (hx : 0 ≤ x) : x ^ a * Real.exp (-x) / a ≤ Spec.lowerGamma a x := by
  rw [div_le_iff₀ ha]
  have := ibp ha hx
  have := lower_nonneg (a + 1) hx
  linarith

/-- The terms of the series. -/
noncomputable def c (a x : ℝ) : ℕ → ℝ
  | 0 => 1 / a
  | k + 1 => c a x k * (x / (a + (k + 1)))

noncomputable def S (a x : ℝ) (n : ℕ) : ℝ := ∑ k ∈ Finset.range (n + 1), c a x k

theorem c_nonneg (ha : 0 < a) (hx : 0 ≤ x) (k : ℕ) : 0 ≤ c a x k := by
  induction k with
  | zero => rw [c]; positivity
  | succ k ih => rw [c]; positivity

theorem c_pos (ha : 0 < a) (hx : 0 < x) (k : ℕ) : 0 < c a x k := by
  induction k with
  | zero => rw [c]; positivity
  | succ k ih => rw [c]; positivity

theorem S_succ (a x : ℝ) (n : ℕ) : S a x (n + 1) = S a x n + c a x (n + 1) := by
  rw [S, S, Finset.sum_range_succ]

theorem S_ge (ha : 0 < a) (hx : 0 ≤ x) (n : ℕ) : 1 / a ≤ S a x n := by
  have : c a x 0 ≤ S a x n := Finset.single_le_sum (fun k _ => c_nonneg ha hx k) (Finset.mem_range.2 (by omega))
  simpa [c] using this

/-- The remainder of the series. -/
noncomputable def rest (a x : ℝ) (n : ℕ) : ℝ := Spec.lowerGamma (a + (n + 1)) x * c a x n / x ^ n

theorem rest_zero (a x : ℝ) : rest a x 0 = Spec.lowerGamma (a + 1) x / a := by
  simp [rest, c]; ring

theorem series (ha : 0 < a) (hx : 0 < x) (n : ℕ) : Spec.lowerGamma a x = x ^ a * Real.exp (-x) * S a x n + rest a x n := by
  induction n with
  | zero =>
    have h := ibp ha hx.le
    have hs : S a x 0 = 1 / a := by simp [S, c]
    rw [hs, rest_zero]; field_simp; linarith
  | succ n ih =>
    rw [ih, S_succ]
    have hb : 0 < a + ((n : ℝ) + 1) := by positivity
    have h := ibp hb hx.le
    have e : rest a x n = x ^ a * Real.exp (-x) * c a x (n + 1) + rest a x (n + 1) := by
      have e1 : x ^ (a + ((n : ℝ) + 1)) = x ^ a * (x ^ n * x) := by
        rw [Real.rpow_add hx, show ((n : ℝ) + 1) = ((n + 1 : ℕ) : ℝ) by push_cast; ring, Real.rpow_natCast, pow_succ]
      rw [e1] at h
      rw [rest, rest, c, pow_succ]
      have hxn : 0 < x ^ n := by positivity
      rw [show a + (((n + 1 : ℕ) : ℝ) + 1) = a + ((n : ℝ) + 1) + 1 by push_cast; ring]
      field_simp
      linear_combination c a x n * h
    linarith

theorem rest_nonneg (ha : 0 < a) (hx : 0 < x) (n : ℕ) : 0 ≤ rest a x n :=
  div_nonneg (mul_nonneg (lower_nonneg _ hx.le) (c_nonneg ha hx.le n)) (by positivity)

theorem rest_le (ha : 0 < a) (hx : 0 < x) {n : ℕ} (hn : x < a + (n + 1)) :
    rest a x n ≤ x ^ a * Real.exp (-x) * (c a x n * (x / (a + (n + 1) - x))) := by
  have h := lower_le (a := a + ((n : ℝ) + 1)) (by positivity) hx.le hn
  have e1 : x ^ (a + ((n : ℝ) + 1)) = x ^ a * (x ^ n * x) := by
    rw [Real.rpow_add hx, show ((n : ℝ) + 1) = ((n + 1 : ℕ) : ℝ) by push_cast; ring, Real.rpow_natCast, pow_succ]
  have hc := c_nonneg ha hx.le n
  have hxn : 0 < x ^ n := by positivity
  rw [rest, div_le_iff₀ hxn]
  refine (mul_le_mul_of_nonneg_right h hc).trans (le_of_eq ?_)
  rw [e1]
  have : 0 < a + (n + 1) - x := by linarith
  field_simp

/-! ### The loop -/

theorem loop (ha : 0 < a) (hx : 0 < x) (eps : ℝ) : ∀ k j : ℕ, ∃ m : ℕ,
    serLoop (fin eps) (fin x) k (fin (c a x j)) (fin (a + j)) (fin (S a x j)) = fin (S a x m) ∧ j ≤ m ∧ m ≤ j + k ∧
      ((j < m ∧ c a x m ≤ eps * S a x m) ∨ m = j + k) := by
  intro k
  induction k with
  | zero => intro j; exact ⟨j, rfl, le_rfl, le_rfl, Or.inr rfl⟩
  | succ k ih =>
    intro j
    have hn : (a + ((j : ℝ) + 1)) ≠ 0 := by positivity
    have hs : 0 ≤ S a x (j + 1) := le_trans (by positivity) (S_ge ha hx.le _)
    rw [serLoop]
    simp only [ofNat_fin, Nat.cast_one, fin_add, add_assoc, fin_div hn, fin_mul, abs_fin, fin_lt]
    rw [show c a x j * (x / (a + ((j : ℝ) + 1))) = c a x (j + 1) from rfl, ← S_succ, abs_of_nonneg hs, abs_of_nonneg (c_nonneg ha hx.le _)]
    split_ifs with h
    · obtain ⟨m, e, h1, h2, h3⟩ := ih (j + 1)
      refine ⟨m, ?_, by omega, by omega, ?_⟩
      · rw [← e]; push_cast; rfl
      · rcases h3 with h3 | h3
        · exact Or.inl ⟨by omega, h3.2⟩
        · exact Or.inr (by omega)
    · exact ⟨j + 1, rfl, by omega, by omega, Or.inl ⟨by omega, not_lt.1 h⟩⟩

theorem gamma_eq (ha : 0 < a) : ∫ t in Ioi (0 : ℝ), t ^ (a - 1) * Real.exp (-t) = Real.Gamma a := by
  rw [Real.Gamma_eq_integral ha]
  refine setIntegral_congr_fun measurableSet_Ioi fun t _ => mul_comm _ _

theorem regGamma_eq (ha : 0 < a) (x : ℝ) : Spec.regGamma a x = Spec.lowerGamma a x / Real.Gamma a := by
  rw [Spec.regGamma, gamma_eq ha]

/-- What the series computes. -/
theorem ser_fin (L : Limits) (byGamma : Bool) (ha : 0 < a) (hx : 0 < x) (hxe : 4 * L.epsilon ≤ x) :
    ∃ m : ℕ, gammaPSer L byGamma (fin a) (fin x) = fin (x ^ a * Real.exp (-x) * S a x m / if byGamma then Real.Gamma a else 1) ∧ m ≤ L.digits ∧
      ((0 < m ∧ c a x m ≤ 4 * L.epsilon * S a x m) ∨ m = L.digits) := by
  obtain ⟨m, e, -, h2, h3⟩ := loop ha hx (4 * L.epsilon) L.digits 0
  have hS : S a x 0 = 1 / a := by simp [S, c]
  refine ⟨m, ?_, by omega, by simpa using h3⟩
  rw [gammaPSer]
  simp only [ofNat_fin, fin_mul, fin_lt, Nat.cast_ofNat, Nat.cast_one, Nat.cast_zero]
  rw [if_neg (by linarith), fin_div ha.ne']
  rw [hS, show c a x 0 = 1 / a from rfl, Nat.cast_zero, add_zero] at e
  rw [e]
  have e1 : Real.exp (-x + a * Real.log x) = x ^ a * Real.exp (-x) := by
    rw [Real.exp_add, Real.rpow_def_of_pos hx, mul_comm a, mul_comm]
  split_ifs
  · rw [lnGamma_fin ha, ln_fin hx, neg_fin, fin_mul, fin_add, fin_sub, exp_fin, fin_mul, Real.exp_sub, e1, Real.exp_log (Real.Gamma_pos_of_pos ha)]
    congr 1; ring
  · rw [ln_fin hx, neg_fin, fin_mul, fin_add, exp_fin, fin_mul, e1, div_one]

/-- How fast the terms decrease. -/
theorem c_le (ha : 0 < a) (hx : 0 ≤ x) {r : ℕ → ℝ} (hr : ∀ i, x / (a + (i + 1)) ≤ r i) (n : ℕ) : c a x n ≤ (∏ i ∈ Finset.range n, r i) * (1 / a) := by
  induction n with
  | zero => simp [c]
  | succ n ih =>
    rw [c, Finset.prod_range_succ]
    have h0 : 0 ≤ x / (a + ((n : ℝ) + 1)) := by positivity
    calc c a x n * (x / (a + ((n : ℝ) + 1))) ≤ (∏ i ∈ Finset.range n, r i) * (1 / a) * r n :=
          mul_le_mul ih (hr n) h0 (le_trans (c_nonneg ha hx n) ih)
      _ = _ := by ring

/-- The accuracy of the series where it is used. -/
theorem ser_accuracy (L : Limits) {D : ℕ} (byGamma : Bool) (ha : 0 < a) (hx : 0 < x) (hxe : 4 * L.epsilon ≤ x) (he : 0 ≤ L.epsilon) (hxa : x < a + 1) (hd : 0 < L.digits)
    (hreg : a ≤ D ∨ x ≤ 3 / 10 * a) (h1 : ∏ i ∈ Finset.range L.digits, ((D + 1 : ℝ) / (D + (i + 1))) ≤ 4 * L.epsilon)
    (h2 : (3 / 10 : ℝ) ^ L.digits ≤ 4 * L.epsilon) :
    ∃ y : ℝ, gammaPSer L byGamma (fin a) (fin x) = fin y ∧ 0 ≤ y ∧ y ≤ (Spec.lowerGamma a x / if byGamma then Real.Gamma a else 1) ∧
      (Spec.lowerGamma a x / if byGamma then Real.Gamma a else 1) - y ≤ 4 * L.epsilon * (D + 1) * y := by
  obtain ⟨m, e, hm, h⟩ := ser_fin L byGamma ha hx hxe
  refine ⟨_, e, ?_⟩
  set G : ℝ := if byGamma then Real.Gamma a else 1 with hG
  have hG0 : 0 < G := by
    rw [hG]; split_ifs
    · exact Real.Gamma_pos_of_pos ha
    · exact one_pos
  have hS := S_ge ha hx.le m
  have hS0 : 0 < S a x m := lt_of_lt_of_le (by positivity) hS
  have hw : 0 < x ^ a * Real.exp (-x) := mul_pos (Real.rpow_pos_of_pos hx _) (Real.exp_pos _)
  have hm0 : 0 < m := by rcases h with h | h <;> omega
  have hm1 : (1 : ℝ) ≤ m := by exact_mod_cast hm0
  have hc : c a x m ≤ 4 * L.epsilon * S a x m := by
    rcases h with h | h
    · exact h.2
    · have hc1 : c a x m ≤ 4 * L.epsilon * (1 / a) := by
        rcases hreg with hr | hr
        · refine (c_le ha hx.le (r := fun i => (D + 1 : ℝ) / (D + (i + 1))) (fun i => ?_) m).trans ?_
          · have hi : (0 : ℝ) ≤ i := Nat.cast_nonneg i
            have hD : (0 : ℝ) ≤ D := Nat.cast_nonneg D
            rw [div_le_div_iff₀ (by positivity) (by positivity)]
            nlinarith
          · rw [h]
            exact mul_le_mul_of_nonneg_right h1 (by positivity)
        · refine (c_le ha hx.le (r := fun _ => 3 / 10) (fun i => ?_) m).trans ?_
          · rw [div_le_iff₀ (by positivity)]
            have hi : (0 : ℝ) ≤ i := Nat.cast_nonneg i
            linarith
          · rw [Finset.prod_const, Finset.card_range, h]
            exact mul_le_mul_of_nonneg_right h2 (by positivity)
      exact hc1.trans (mul_le_mul_of_nonneg_left hS (by positivity))
  have hser := series ha hx m
  have hr0 := rest_nonneg ha hx m
  have hr1 := rest_le ha hx (n := m) (by linarith)
  have hq : x / (a + (m + 1) - x) ≤ D + 1 := by
    have hD : (0 : ℝ) ≤ D := Nat.cast_nonneg D
    rw [div_le_iff₀ (by linarith)]
    rcases hreg with hr | hr
    · nlinarith
    · nlinarith
  have hcn := c_nonneg ha hx.le m
  have hr2 : rest a x m ≤ x ^ a * Real.exp (-x) * (4 * L.epsilon * S a x m * (D + 1)) := by
    refine hr1.trans (mul_le_mul_of_nonneg_left ?_ hw.le)
    have hq0 : 0 ≤ x / (a + (m + 1) - x) := div_nonneg hx.le (by linarith)
    exact mul_le_mul hc hq hq0 (le_trans hcn hc)
  refine ⟨by positivity, ?_, ?_⟩
  · rw [hser]; gcongr; linarith
  · rw [hser, add_div, add_sub_cancel_left, ← mul_div_assoc]
    gcongr
    linarith

end Trng.GammaSeries
