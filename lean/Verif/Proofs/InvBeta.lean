import Verif.Proofs.BetaEval

/-! The Newton iteration of `inv_Beta_I`. -/
namespace Trng.BetaSeries
open Set MeasureTheory XR Special

/-! ### A Newton step for a convex and log-concave function -/

theorem exp_neg_le {s : ℝ} (h0 : 0 ≤ s) (h1 : s ≤ 1) : Real.exp (-s) ≤ 1 - s / 2 := by
  have h := Real.exp_bound_div_one_sub_of_interval (x := s / 2) (by linarith) (by linarith)
  have h2 : Real.exp (-s) ≤ 1 / (1 + s) := by
    rw [Real.exp_neg, ← one_div]
    exact one_div_le_one_div_of_le (by linarith) (by linarith [Real.add_one_le_exp s])
  refine h2.trans ?_
  rw [div_le_iff₀ (by linarith)]
  nlinarith

structure NewtonData (F f : ℝ → ℝ) (y0 : ℝ) : Prop where
  deriv : ∀ t, 0 < t → t ≤ y0 → HasDerivAt F (f t) t
  pos : ∀ t, 0 < t → t ≤ y0 → 0 < F t
  fpos : ∀ t, 0 < t → t ≤ y0 → 0 < f t
  mono : ∀ s t, 0 < s → s ≤ t → t ≤ y0 → f s ≤ f t
  anti : ∀ s t, 0 < s → s ≤ t → t ≤ y0 → f t / F t ≤ f s / F s

namespace NewtonData
variable {F f : ℝ → ℝ} {y0 : ℝ}

theorem mono_F (h : NewtonData F f y0) {s t : ℝ} (hs : 0 < s) (hst : s ≤ t) (ht : t ≤ y0) : F s ≤ F t := by
  rcases eq_or_lt_of_le hst with e | hlt
  · rw [e]
  · obtain ⟨c, hc, e⟩ := exists_hasDerivAt_eq_slope F f hlt
      (fun x hx => (h.deriv x (by linarith [hx.1]) (by linarith [hx.2])).continuousAt.continuousWithinAt)
      (fun x hx => h.deriv x (by linarith [hx.1]) (by linarith [hx.2]))
    have := h.fpos c (by linarith [hc.1]) (by linarith [hc.2])
    rw [e] at this
    rw [lt_div_iff₀ (by linarith)] at this
    linarith

theorem tangent (h : NewtonData F f y0) {s t : ℝ} (hs : 0 < s) (hst : s ≤ t) (ht : t ≤ y0) : F t - F s ≤ f t * (t - s) := by
  rcases eq_or_lt_of_le hst with e | hlt
  · rw [e]; simp
  · obtain ⟨c, hc, e⟩ := exists_hasDerivAt_eq_slope F f hlt
      (fun x hx => (h.deriv x (by linarith [hx.1]) (by linarith [hx.2])).continuousAt.continuousWithinAt)
      (fun x hx => h.deriv x (by linarith [hx.1]) (by linarith [hx.2]))
    have := h.mono c t (by linarith [hc.1]) hc.2.le ht
    rw [e] at this
    rwa [div_le_iff₀ (by linarith)] at this

theorem logconcave (h : NewtonData F f y0) {s t : ℝ} (hs : 0 < s) (hst : s ≤ t) (ht : t ≤ y0) :
    F s ≤ F t * Real.exp (-(f t / F t * (t - s))) := by
  rcases eq_or_lt_of_le hst with e | hlt
  · rw [e]; simp
  · obtain ⟨c, hc, e⟩ := exists_hasDerivAt_eq_slope (fun x => Real.log (F x)) (fun x => f x / F x) hlt
      (fun x hx => ((h.deriv x (by linarith [hx.1]) (by linarith [hx.2])).log
        (h.pos x (by linarith [hx.1]) (by linarith [hx.2])).ne').continuousAt.continuousWithinAt)
      (fun x hx => (h.deriv x (by linarith [hx.1]) (by linarith [hx.2])).log
        (h.pos x (by linarith [hx.1]) (by linarith [hx.2])).ne')
    have := h.anti c t (by linarith [hc.1]) hc.2.le ht
    rw [e, le_div_iff₀ (by linarith)] at this
    have hFs := h.pos s hs (by linarith)
    have hFt := h.pos t (by linarith) ht
    calc F s = Real.exp (Real.log (F s)) := (Real.exp_log hFs).symm
      _ ≤ Real.exp (Real.log (F t) + -(f t / F t * (t - s))) := Real.exp_le_exp.2 (by linarith)
      _ = _ := by rw [Real.exp_add, Real.exp_log hFt]

theorem step (h : NewtonData F f y0) {z y : ℝ} (hz : 0 < z) (hzy : z ≤ y) (hy : y ≤ y0) :
    z ≤ y - (F y - F z) / f y ∧ y - (F y - F z) / f y ≤ y ∧ F (y - (F y - F z) / f y) - F z ≤ (F y - F z) / 2 := by
  have hf := h.fpos y (by linarith) hy
  have hFy := h.pos y (by linarith) hy
  have hFz := h.pos z hz (by linarith)
  have hm := h.mono_F hz hzy hy
  have h1 : z ≤ y - (F y - F z) / f y := by
    have := h.tangent hz hzy hy
    have : (F y - F z) / f y ≤ y - z := by rw [div_le_iff₀ hf]; linarith
    linarith
  have h2 : y - (F y - F z) / f y ≤ y := by
    have : 0 ≤ (F y - F z) / f y := div_nonneg (by linarith) hf.le
    linarith
  refine ⟨h1, h2, ?_⟩
  have h3 := h.logconcave (by linarith) h2 hy
  have e : f y / F y * (y - (y - (F y - F z) / f y)) = 1 - F z / F y := by
    field_simp; ring
  rw [e] at h3
  have hr : F z / F y ≤ 1 := (div_le_one hFy).2 hm
  have h4 := exp_neg_le (s := 1 - F z / F y) (by linarith) (by have := div_pos hFz hFy; linarith)
  have h5 : F y * (1 - (1 - F z / F y) / 2) = F y / 2 + F z / 2 := by field_simp; ring
  have := h3.trans (mul_le_mul_of_nonneg_left h4 hFy.le)
  linarith

/-- The iteration stays to the right of the solution and halves the error in each turn. -/
theorem iterates (h : NewtonData F f y0) {z : ℝ} (hz : 0 < z) (hzy : z ≤ y0) (n : ℕ) :
    z ≤ (fun y => y - (F y - F z) / f y)^[n] y0 ∧ (fun y => y - (F y - F z) / f y)^[n] y0 ≤ y0 ∧
    F ((fun y => y - (F y - F z) / f y)^[n] y0) - F z ≤ (F y0 - F z) * 2⁻¹ ^ n := by
  induction n with
  | zero => simp [hzy]
  | succ n ih =>
    rw [Function.iterate_succ_apply']
    obtain ⟨a, b, c⟩ := h.step hz ih.1 ih.2.1
    refine ⟨a, b.trans ih.2.1, c.trans ?_⟩
    rw [pow_succ]; linarith [ih.2.2]

end NewtonData

/-! ### The distribution function -/

variable {x p q : ℝ}

/-- The density of the Beta distribution. -/
noncomputable def dens (p q y : ℝ) : ℝ := (1 - y) ^ (q - 1) * y ^ (p - 1) / Spec.beta p q

theorem dens_pos (hp : 0 < p) (hq : 0 < q) (h0 : 0 < x) (h1 : x < 1) : 0 < dens p q x :=
  div_pos (mul_pos (Real.rpow_pos_of_pos (by linarith) _) (Real.rpow_pos_of_pos h0 _)) (beta_pos hp hq)

theorem dens_reflect (hp : 0 < p) (hq : 0 < q) (x : ℝ) : dens p q x = dens q p (1 - x) := by
  rw [dens, dens, sub_sub_cancel, beta_eq hp hq, beta_eq hq hp, add_comm q p]; ring

theorem hasDerivAt_regBeta (hp : 0 < p) (h0 : 0 < x) (h1 : x < 1) :
    HasDerivAt (fun y => Spec.regBeta y p q) (dens p q x) x := by
  have hc : ContinuousAt (fun t : ℝ => t ^ (p - 1) * (1 - t) ^ (q - 1)) x :=
    (Real.continuousAt_rpow_const _ _ (Or.inl h0.ne')).mul
      ((continuousAt_const.sub continuousAt_id).rpow_const (Or.inl (by simp; linarith)))
  have hm : StronglyMeasurableAtFilter (fun t : ℝ => t ^ (p - 1) * (1 - t) ^ (q - 1)) (nhds x) :=
    (by fun_prop : Measurable fun t : ℝ => t ^ (p - 1) * (1 - t) ^ (q - 1)).stronglyMeasurable.stronglyMeasurableAtFilter
  have := (intervalIntegral.integral_hasDerivAt_right (integrable h0.le h1 hp (q := q)) hm hc).div_const (Spec.beta p q)
  refine this.congr_deriv ?_
  rw [dens]; ring

theorem regBeta_pos (hp : 0 < p) (hq : 0 < q) (h0 : 0 < x) (h1 : x < 1) : 0 < Spec.regBeta x p q := by
  rw [Spec.regBeta]
  refine div_pos ?_ (beta_pos hp hq)
  refine intervalIntegral.intervalIntegral_pos_of_pos_on (integrable h0.le h1 hp) (fun t ht => ?_) h0
  exact mul_pos (Real.rpow_pos_of_pos ht.1 _) (Real.rpow_pos_of_pos (by linarith [ht.2]) _)

theorem regBeta_lt_one (hp : 0 < p) (hq : 0 < q) (h0 : 0 < x) (h1 : x < 1) : Spec.regBeta x p q < 1 := by
  rw [regBeta_reflect h0.le h1.le hp hq]
  linarith [regBeta_pos hq hp (x := 1 - x) (by linarith) (by linarith)]

/-- The integral in units of the integrand at its end. -/
theorem regBeta_scale (p q : ℝ) (h0 : 0 < x) (h1 : x < 1) :
    Spec.regBeta x p q = dens p q x * (x * ∫ v in (0 : ℝ)..1, v ^ (p - 1) * ((1 - x * v) / (1 - x)) ^ (q - 1)) := by
  have h1' : 0 < 1 - x := by linarith
  have e := intervalIntegral.integral_comp_mul_left (fun t : ℝ => t ^ (p - 1) * (1 - t) ^ (q - 1)) h0.ne' (a := 0) (b := 1)
  rw [mul_zero, mul_one, smul_eq_mul] at e
  have e2 : (∫ v in (0 : ℝ)..1, (x * v) ^ (p - 1) * (1 - x * v) ^ (q - 1)) =
      ∫ v in (0 : ℝ)..1, (x ^ (p - 1) * (1 - x) ^ (q - 1)) * (v ^ (p - 1) * ((1 - x * v) / (1 - x)) ^ (q - 1)) := by
    refine intervalIntegral.integral_congr fun v hv => ?_
    rw [uIcc_of_le zero_le_one] at hv
    have hv1 : 0 ≤ 1 - x * v := by nlinarith [hv.1, hv.2]
    rw [Real.mul_rpow h0.le hv.1, Real.div_rpow hv1 h1'.le]
    have := (Real.rpow_pos_of_pos h1' (q - 1)).ne'
    field_simp
  rw [e2, intervalIntegral.integral_const_mul] at e
  rw [Spec.regBeta, dens]
  have : (∫ t in (0 : ℝ)..x, t ^ (p - 1) * (1 - t) ^ (q - 1)) = x * (x⁻¹ * ∫ t in (0 : ℝ)..x, t ^ (p - 1) * (1 - t) ^ (q - 1)) := by
    field_simp
  rw [this, ← e]; ring

theorem integrable_scale (h0 : 0 < x) (h1 : x < 1) (hp : 0 < p) :
    IntervalIntegrable (fun v : ℝ => v ^ (p - 1) * ((1 - x * v) / (1 - x)) ^ (q - 1)) volume 0 1 := by
  refine (intervalIntegral.intervalIntegrable_rpow' (by linarith)).mul_continuousOn ?_
  rw [uIcc_of_le zero_le_one]
  intro v hv
  have : 0 < (1 - x * v) / (1 - x) := div_pos (by nlinarith [hv.1, hv.2]) (by linarith)
  refine ContinuousAt.continuousWithinAt (ContinuousAt.rpow_const ?_ (Or.inl this.ne'))
  fun_prop

/-- The logarithm of the distribution function is concave. -/
theorem dens_div_anti (hp : 0 < p) (hq : 1 ≤ q) {s t : ℝ} (hs : 0 < s) (hst : s ≤ t) (ht : t < 1) :
    dens p q t / Spec.regBeta t p q ≤ dens p q s / Spec.regBeta s p q := by
  have hq0 : 0 < q := by linarith
  have ht0 : 0 < t := by linarith
  have hs1 : s < 1 := by linarith
  have inv : ∀ r : ℝ, 0 < r → r < 1 → dens p q r / Spec.regBeta r p q = 1 / (r * ∫ v in (0 : ℝ)..1, v ^ (p - 1) * ((1 - r * v) / (1 - r)) ^ (q - 1)) := by
    intro r h0 h1
    have hd := dens_pos hp hq0 h0 h1
    rw [regBeta_scale p q h0 h1]
    field_simp
  have pos : ∀ r : ℝ, 0 < r → r < 1 → 0 < r * ∫ v in (0 : ℝ)..1, v ^ (p - 1) * ((1 - r * v) / (1 - r)) ^ (q - 1) := by
    intro r h0 h1
    have := regBeta_pos hp hq0 h0 h1
    rw [regBeta_scale p q h0 h1] at this
    exact (pos_iff_pos_of_mul_pos this).1 (dens_pos hp hq0 h0 h1)
  rw [inv s hs hs1, inv t ht0 ht]
  refine one_div_le_one_div_of_le (pos s hs hs1) ?_
  refine mul_le_mul hst ?_ ((pos_iff_pos_of_mul_pos (pos s hs hs1)).1 hs).le ht0.le
  refine intervalIntegral.integral_mono_on zero_le_one (integrable_scale hs hs1 hp) (integrable_scale ht0 ht hp) fun v hv => ?_
  refine mul_le_mul_of_nonneg_left ?_ (Real.rpow_nonneg hv.1 _)
  refine Real.rpow_le_rpow (div_nonneg (by nlinarith [hv.1, hv.2]) (by linarith)) ?_ (by linarith)
  rw [div_le_div_iff₀ (by linarith) (by linarith)]
  nlinarith [hv.1, hv.2]

/-- The density grows up to the mode. -/
theorem dens_mono (hp : 1 ≤ p) (hq : 1 ≤ q) {s t : ℝ} (hs : 0 < s) (hst : s ≤ t) (ht1 : t < 1) (ht : (q - 1) * t ≤ (p - 1) * (1 - t)) :
    dens p q s ≤ dens p q t := by
  have hb := beta_pos (by linarith : 0 < p) (by linarith : 0 < q)
  refine div_le_div_of_nonneg_right ?_ hb.le
  rw [mul_comm, mul_comm ((1 - t) ^ (q - 1))]
  rcases eq_or_lt_of_le hp with e | hp'
  · rw [← e] at ht ⊢
    have : q = 1 := by nlinarith
    rw [this]; simp
  · rcases eq_or_lt_of_le hq with e | hq'
    · rw [← e]; simp
      exact Real.rpow_le_rpow hs.le hst (by linarith)
    · exact integrand_mono (p := p - 1) (q := q - 1) (by linarith) (by linarith) hs hst ht1 (by linarith)

theorem newtonData (hp : 1 ≤ p) (hq : 1 ≤ q) {y0 : ℝ} (h1 : y0 < 1) (h : (q - 1) * y0 ≤ (p - 1) * (1 - y0)) :
    NewtonData (fun y => Spec.regBeta y p q) (dens p q) y0 where
  deriv t h0 ht := hasDerivAt_regBeta (by linarith) h0 (by linarith)
  pos t h0 ht := regBeta_pos (by linarith) (by linarith) h0 (by linarith)
  fpos t h0 ht := dens_pos (by linarith) (by linarith) h0 (by linarith)
  mono s t h0 hst ht := dens_mono hp hq h0 hst (by linarith) (by nlinarith)
  anti s t h0 hst ht := dens_div_anti (by linarith) hq h0 hst (by linarith)

/-! ### The loop -/

/-- An exact `Beta_I` with the correct norm. -/
def Exact (p q : ℝ) (BI : XR → XR → XR → XR → Option XR) : Prop :=
  ∀ y : ℝ, 0 ≤ y → y ≤ 1 → BI (fin y) (fin p) (fin q) (fin (Spec.beta p q)) = some (fin (Spec.regBeta y p q))

theorem damp_none_needed {y dy : ℝ} (h0 : 0 < y - dy) (h1 : y - dy < 1) : damp (fin y) (fin dy) = some (fin dy) := by
  have hz : ¬(fin y - Nat.repeat (· * (3 / 4)) 0 (fin dy) ≤ 0 ∨ 1 ≤ fin y - Nat.repeat (· * (3 / 4)) 0 (fin dy)) := by
    simp only [Nat.repeat, fin_sub, ofNat_fin, fin_le, Nat.cast_zero, Nat.cast_one]
    push Not; exact ⟨h0, h1⟩
  have hex : ∃ k : ℕ, ¬(fin y - Nat.repeat (· * (3 / 4)) k (fin dy) ≤ 0 ∨ 1 ≤ fin y - Nat.repeat (· * (3 / 4)) k (fin dy)) := ⟨0, hz⟩
  rw [damp, dif_pos hex]
  have : Nat.find hex = 0 := (Nat.find_eq_zero hex).2 hz
  rw [this]; rfl

/-- The iteration follows the exact Newton iterates until it stops. -/
theorem loop_iterates {L : Limits} {BI : XR → XR → XR → XR → Option XR} {u : ℝ} (hp : 0 < p) (hq : 0 < q) (hBI : Exact p q BI) (he : 0 ≤ L.epsilon)
    {N : ℕ → ℝ} (hN : ∀ n, N (n + 1) = N n - (Spec.regBeta (N n) p q - u) / dens p q (N n)) (h0 : ∀ n, 0 < N n) (h1 : ∀ n, N n < 1) :
    ∀ k n : ℕ, ∃ y : ℝ, invBetaLoop L BI (fin u) (fin p) (fin q) (fin (Spec.beta p q)) k (fin (N n)) = some (fin y) ∧ 0 < y ∧ y < 1 ∧
      (y = N (n + k) ∨ |Spec.regBeta y p q - u| ≤ 2 * L.epsilon) := by
  intro k
  induction k with
  | zero => intro n; exact ⟨N n, rfl, h0 n, h1 n, Or.inl rfl⟩
  | succ k ih =>
    intro n
    have hy := h0 n
    have hy1 := h1 n
    have hd := dens_pos hp hq hy hy1
    have hb := beta_pos hp hq
    rw [invBetaLoop, hBI _ hy.le hy1.le, Option.bind_some]
    simp only [fin_sub, ofNat_fin, Nat.cast_one, Nat.cast_ofNat, pow_fin hy, pow_fin (by linarith : 0 < 1 - N n), fin_mul, fin_div hb.ne', fin_div hy.ne',
      abs_fin, fin_lt]
    rw [show (1 - N n) ^ (q - 1) * N n ^ (p - 1) / Spec.beta p q = dens p q (N n) from rfl, fin_div hd.ne']
    split_ifs with hc
    · refine ⟨N n, rfl, hy, hy1, Or.inr ?_⟩
      rw [abs_div, abs_of_pos hy, div_lt_iff₀ hy] at hc
      exact hc.le.trans (by nlinarith)
    · have hs := hN n
      have := damp_none_needed (y := N n) (dy := (Spec.regBeta (N n) p q - u) / dens p q (N n)) (by rw [← hs]; exact h0 _) (by rw [← hs]; exact h1 _)
      rw [this, Option.bind_some, fin_sub, ← hs]
      obtain ⟨y, e, a, b, c⟩ := ih (n + 1)
      refine ⟨y, e, a, b, ?_⟩
      rwa [show n + (k + 1) = n + 1 + k by ring]

theorem continuousOn_regBeta (hp : 0 < p) (hq : 0 < q) : ContinuousOn (fun y => Spec.regBeta y p q) (Icc 0 1) := by
  have h := intervalIntegral.continuousOn_primitive_interval' (integrable_one hp hq) (left_mem_uIcc (a := (0 : ℝ)) (b := 1))
  rw [uIcc_of_le zero_le_one] at h
  exact h.div_const _

/-- Every probability is reached. -/
theorem exists_quantile (hp : 0 < p) (hq : 0 < q) {u : ℝ} (h0 : 0 < u) (h1 : u < 1) : ∃ z, 0 < z ∧ z < 1 ∧ Spec.regBeta z p q = u := by
  have hz : Spec.regBeta 0 p q = 0 := by rw [Spec.regBeta, intervalIntegral.integral_same, zero_div]
  have ho : Spec.regBeta 1 p q = 1 := by rw [regBeta_reflect zero_le_one le_rfl hp hq, sub_self, Spec.regBeta, intervalIntegral.integral_same, zero_div, sub_zero]
  obtain ⟨z, hz1, e⟩ := intermediate_value_Icc zero_le_one (continuousOn_regBeta hp hq) (show u ∈ Icc _ _ by simp only [hz, ho]; exact ⟨h0.le, h1.le⟩)
  refine ⟨z, lt_of_le_of_ne hz1.1 ?_, lt_of_le_of_ne hz1.2 ?_, e⟩
  · rintro rfl; simp only [hz] at e; linarith
  · rintro rfl; simp only [ho] at e; linarith

theorem regBeta_strictMono (hp : 0 < p) (hq : 0 < q) {s t : ℝ} (hs : 0 < s) (hst : s < t) (ht : t < 1) : Spec.regBeta s p q < Spec.regBeta t p q := by
  obtain ⟨c, hc, e⟩ := exists_hasDerivAt_eq_slope (fun y => Spec.regBeta y p q) (dens p q) hst
    (fun x hx => (hasDerivAt_regBeta hp (by linarith [hx.1]) (by linarith [hx.2])).continuousAt.continuousWithinAt)
    (fun x hx => hasDerivAt_regBeta hp (by linarith [hx.1]) (by linarith [hx.2]))
  have := dens_pos hp hq (x := c) (by linarith [hc.1]) (by linarith [hc.2])
  rw [e, lt_div_iff₀ (by linarith)] at this
  linarith

theorem regBeta_zero : Spec.regBeta 0 p q = 0 := by rw [Spec.regBeta, intervalIntegral.integral_same, zero_div]

theorem regBeta_one (hp : 0 < p) (hq : 0 < q) : Spec.regBeta 1 p q = 1 := by
  rw [regBeta_reflect zero_le_one le_rfl hp hq, sub_self, regBeta_zero, sub_zero]

theorem guess_median (hp : 1 / 2 ≤ p) (hq : 1 / 2 ≤ q) (rnd : XR → XR) (u : ℝ) :
    invBetaGuess rnd (fin u) (fin p) (fin q) = fin ((3 * p - 1) / (3 * p + 3 * q - 2)) := by
  rw [invBetaGuess]
  simp only [ofNat_fin, fin_mul, fin_le, fin_add, fin_sub, Nat.cast_one, Nat.cast_ofNat]
  rw [if_pos ⟨by linarith, by linarith⟩, fin_div (by linarith)]

theorem invBetaI_iterates {L : Limits} {rnd : XR → XR} {BI : XR → XR → XR → XR → Option XR} {u d : ℝ} (hp : 1 ≤ p) (hq : 1 ≤ q) (hBI : Exact p q BI)
    (he : 0 ≤ L.epsilon) (h0 : 0 < u) (h1 : u < 1) (hd : 2 * L.epsilon ≤ d)
    {N : ℕ → ℝ} (hN : ∀ n, N (n + 1) = N n - (Spec.regBeta (N n) p q - u) / dens p q (N n)) (h0 : ∀ n, 0 < N n) (h1 : ∀ n, N n < 1)
    (hN0 : N 0 = (3 * p - 1) / (3 * p + 3 * q - 2)) (hlast : |Spec.regBeta (N L.digits) p q - u| ≤ d) :
    ∃ y : ℝ, invBetaI L rnd BI (fin u) (fin p) (fin q) (fin (Spec.beta p q)) = some (fin y) ∧ 0 ≤ y ∧ y ≤ 1 ∧ |Spec.regBeta y p q - u| ≤ d ∧
      (L.epsilon ≤ u → u ≤ 1 - L.epsilon → 0 < y ∧ y < 1) := by
  rw [invBetaI]
  simp only [fin_lt, ofNat_fin, Nat.cast_one, fin_sub, Nat.cast_zero]
  split_ifs with c1 c2
  · refine ⟨0, rfl, le_rfl, zero_le_one, ?_⟩
    rw [regBeta_zero, zero_sub, abs_neg, abs_of_pos (by assumption)]
    exact ⟨by linarith, fun h => by linarith⟩
  · refine ⟨1, rfl, zero_le_one, le_rfl, ?_⟩
    rw [regBeta_one (by linarith) (by linarith), abs_of_pos (by linarith)]
    exact ⟨by linarith, fun _ h => by linarith⟩
  · rw [guess_median (by linarith) (by linarith), ← hN0]
    obtain ⟨y, e, a, b, c⟩ := loop_iterates (p := p) (q := q) (by linarith) (by linarith) hBI he hN h0 h1 L.digits 0
    refine ⟨y, e, a.le, b.le, ?_, fun _ _ => ⟨a, b⟩⟩
    rcases c with c | c
    · rw [c, zero_add]; exact hlast
    · exact c.trans hd

/-- The side of the longer tail, lower end. -/
theorem invBetaI_low {L : Limits} {rnd : XR → XR} {BI : XR → XR → XR → XR → Option XR} {u : ℝ} (hp : 1 ≤ p) (hq : 1 ≤ q) (hBI : Exact p q BI)
    (he : 0 ≤ L.epsilon) (h0 : 0 < u) (h1 : u < 1) (hpq : q ≤ p) (hu : u ≤ Spec.regBeta ((3 * p - 1) / (3 * p + 3 * q - 2)) p q) :
    ∃ y : ℝ, invBetaI L rnd BI (fin u) (fin p) (fin q) (fin (Spec.beta p q)) = some (fin y) ∧ 0 ≤ y ∧ y ≤ 1 ∧
      |Spec.regBeta y p q - u| ≤ max (2⁻¹ ^ L.digits) (2 * L.epsilon) ∧ (L.epsilon ≤ u → u ≤ 1 - L.epsilon → 0 < y ∧ y < 1) := by
  set y0 := (3 * p - 1) / (3 * p + 3 * q - 2) with hy0
  have hden : 0 < 3 * p + 3 * q - 2 := by linarith
  have hy0p : 0 < y0 := div_pos (by linarith) hden
  have hy01 : y0 < 1 := by rw [hy0, div_lt_one hden]; linarith
  have hmode : (q - 1) * y0 ≤ (p - 1) * (1 - y0) := by
    have : (p + q - 2) * y0 ≤ p - 1 := by
      rw [hy0, mul_div_assoc', div_le_iff₀ hden]; nlinarith
    linarith
  have D := newtonData hp hq hy01 hmode
  obtain ⟨z, hz0, hz1, hz⟩ := exists_quantile (p := p) (q := q) (by linarith) (by linarith) h0 h1
  have hzy : z ≤ y0 := by
    by_contra hc; push Not at hc
    have := regBeta_strictMono (p := p) (q := q) (by linarith) (by linarith) hy0p hc hz1
    linarith
  have hit := fun n => D.iterates hz0 hzy n
  simp only [hz] at hit
  refine invBetaI_iterates hp hq hBI he h0 h1 (le_max_right _ _) (N := fun n => (fun y => y - (Spec.regBeta y p q - u) / dens p q y)^[n] y0)
    (fun n => by rw [Function.iterate_succ_apply']) (fun n => lt_of_lt_of_le hz0 (hit n).1) (fun n => lt_of_le_of_lt (hit n).2.1 hy01) rfl ?_
  refine le_trans ?_ (le_max_left _ _)
  have hlo := D.mono_F hz0 (hit L.digits).1 (hit L.digits).2.1
  simp only [hz] at hlo
  rw [abs_of_nonneg (by linarith)]
  refine (hit L.digits).2.2.trans ?_
  have := regBeta_le_one hy0p.le hy01.le (by linarith : 0 < p) (by linarith : 0 < q)
  exact mul_le_of_le_one_left (by positivity) (by linarith)

/-- The side of the longer tail, upper end. -/
theorem invBetaI_high {L : Limits} {rnd : XR → XR} {BI : XR → XR → XR → XR → Option XR} {u : ℝ} (hp : 1 ≤ p) (hq : 1 ≤ q) (hBI : Exact p q BI)
    (he : 0 ≤ L.epsilon) (h0 : 0 < u) (h1 : u < 1) (hpq : p ≤ q) (hu : Spec.regBeta ((3 * p - 1) / (3 * p + 3 * q - 2)) p q ≤ u) :
    ∃ y : ℝ, invBetaI L rnd BI (fin u) (fin p) (fin q) (fin (Spec.beta p q)) = some (fin y) ∧ 0 ≤ y ∧ y ≤ 1 ∧
      |Spec.regBeta y p q - u| ≤ max (2⁻¹ ^ L.digits) (2 * L.epsilon) ∧ (L.epsilon ≤ u → u ≤ 1 - L.epsilon → 0 < y ∧ y < 1) := by
  have hp0 : 0 < p := by linarith
  have hq0 : 0 < q := by linarith
  set y0 := (3 * q - 1) / (3 * q + 3 * p - 2) with hy0
  have hden : 0 < 3 * q + 3 * p - 2 := by linarith
  have hy0p : 0 < y0 := div_pos (by linarith) hden
  have hy01 : y0 < 1 := by rw [hy0, div_lt_one hden]; linarith
  have hy0' : (3 * p - 1) / (3 * p + 3 * q - 2) = 1 - y0 := by
    rw [hy0, show 3 * p + 3 * q - 2 = 3 * q + 3 * p - 2 by ring, eq_sub_iff_add_eq, ← add_div, div_eq_one_iff_eq hden.ne']; ring
  have hmode : (p - 1) * y0 ≤ (q - 1) * (1 - y0) := by
    have : (q + p - 2) * y0 ≤ q - 1 := by
      rw [hy0, mul_div_assoc', div_le_iff₀ hden]; nlinarith
    linarith
  have D := newtonData hq hp hy01 hmode
  obtain ⟨z, hz0, hz1, hz⟩ := exists_quantile hq0 hp0 (u := 1 - u) (by linarith) (by linarith)
  have hzy : z ≤ y0 := by
    by_contra hc; push Not at hc
    have := regBeta_strictMono hq0 hp0 hy0p hc hz1
    rw [hy0', regBeta_reflect (by linarith) (by linarith) hp0 hq0, sub_sub_cancel] at hu
    linarith
  have hit := fun n => D.iterates hz0 hzy n
  simp only [hz] at hit
  set M := fun n => (fun y => y - (Spec.regBeta y q p - (1 - u)) / dens q p y)^[n] y0 with hM
  have hMit : ∀ n, z ≤ M n ∧ M n ≤ y0 ∧ Spec.regBeta (M n) q p - (1 - u) ≤ (Spec.regBeta y0 q p - (1 - u)) * 2⁻¹ ^ n := hit
  have hMs : ∀ n, M (n + 1) = M n - (Spec.regBeta (M n) q p - (1 - u)) / dens q p (M n) := fun n => by
    simp only [hM, Function.iterate_succ_apply']
  have hM0 : ∀ n, 0 < M n := fun n => lt_of_lt_of_le hz0 (hMit n).1
  have hM1 : ∀ n, M n < 1 := fun n => lt_of_le_of_lt (hMit n).2.1 hy01
  refine invBetaI_iterates hp hq hBI he h0 h1 (le_max_right _ _) (N := fun n => 1 - M n)
    (fun n => ?_) (fun n => by linarith [hM1 n]) (fun n => by linarith [hM0 n]) ?_ ?_
  · rw [hMs, regBeta_reflect (by linarith [hM1 n]) (by linarith [hM0 n]) hp0 hq0, dens_reflect hp0 hq0, sub_sub_cancel]
    ring
  · simp only [hM, Function.iterate_zero, id]; exact hy0'.symm
  · refine le_trans ?_ (le_max_left _ _)
    have hlo := D.mono_F hz0 (hMit L.digits).1 (hMit L.digits).2.1
    simp only [hz] at hlo
    rw [regBeta_reflect (by linarith [hM1 L.digits]) (by linarith [hM0 L.digits]) hp0 hq0, sub_sub_cancel,
      show 1 - Spec.regBeta (M L.digits) q p - u = -(Spec.regBeta (M L.digits) q p - (1 - u)) by ring, abs_neg, abs_of_nonneg (by linarith)]
    refine (hMit L.digits).2.2.trans ?_
    have := regBeta_le_one hy0p.le hy01.le hq0 hp0
    exact mul_le_of_le_one_left (by positivity) (by linarith)

/-! ### The range, for every approximation of `Beta_I` -/

theorem repeat_fin (dy : ℝ) (k : ℕ) : Nat.repeat (· * (3 / 4)) k (fin dy) = fin (dy * (3 / 4) ^ k) := by
  induction k with
  | zero => simp [Nat.repeat]
  | succ k ih =>
    rw [Nat.repeat, ih]
    simp only [ofNat_fin, Nat.cast_ofNat]
    rw [fin_div (by norm_num), fin_mul]
    congr 1; ring

theorem damp_range {y dy : ℝ} (h0 : 0 < y) (h1 : y < 1) : ∃ d : ℝ, damp (fin y) (fin dy) = some (fin d) ∧ 0 < y - d ∧ y - d < 1 := by
  have hiff : ∀ k : ℕ, ¬(fin y - Nat.repeat (· * (3 / 4)) k (fin dy) ≤ 0 ∨ 1 ≤ fin y - Nat.repeat (· * (3 / 4)) k (fin dy)) ↔
      0 < y - dy * (3 / 4) ^ k ∧ y - dy * (3 / 4) ^ k < 1 := by
    intro k
    rw [repeat_fin]
    simp only [fin_sub, ofNat_fin, fin_le, Nat.cast_zero, Nat.cast_one]
    push Not; rfl
  have hex : ∃ k : ℕ, ¬(fin y - Nat.repeat (· * (3 / 4)) k (fin dy) ≤ 0 ∨ 1 ≤ fin y - Nat.repeat (· * (3 / 4)) k (fin dy)) := by
    have ht : Filter.Tendsto (fun k : ℕ => y - dy * (3 / 4 : ℝ) ^ k) Filter.atTop (nhds (y - dy * 0)) :=
      tendsto_const_nhds.sub ((tendsto_pow_atTop_nhds_zero_of_lt_one (by norm_num) (by norm_num)).const_mul dy)
    rw [mul_zero, sub_zero] at ht
    obtain ⟨k, hk⟩ := (ht.eventually (Ioo_mem_nhds h0 h1)).exists
    exact ⟨k, (hiff k).2 hk⟩
  refine ⟨dy * (3 / 4) ^ Nat.find hex, ?_, (hiff _).1 (Nat.find_spec hex)⟩
  rw [damp, dif_pos hex, repeat_fin]

theorem loop_range {L : Limits} {BI : XR → XR → XR → XR → Option XR} {u N : ℝ} (hN : 0 < N)
    (hBI : ∀ y : ℝ, 0 < y → y < 1 → ∃ b : ℝ, BI (fin y) (fin p) (fin q) (fin N) = some (fin b)) :
    ∀ (k : ℕ) (y : ℝ), 0 < y → y < 1 → ∃ r : ℝ, invBetaLoop L BI (fin u) (fin p) (fin q) (fin N) k (fin y) = some (fin r) ∧ 0 < r ∧ r < 1 := by
  intro k
  induction k with
  | zero => exact fun y h0 h1 => ⟨y, rfl, h0, h1⟩
  | succ k ih =>
    intro y h0 h1
    obtain ⟨b, hb⟩ := hBI y h0 h1
    have hd : (1 - y) ^ (q - 1) * y ^ (p - 1) / N ≠ 0 :=
      (div_pos (mul_pos (Real.rpow_pos_of_pos (by linarith) _) (Real.rpow_pos_of_pos h0 _)) hN).ne'
    rw [invBetaLoop, hb, Option.bind_some]
    simp only [fin_sub, ofNat_fin, Nat.cast_one, Nat.cast_ofNat, pow_fin h0, pow_fin (by linarith : 0 < 1 - y), fin_mul, fin_div hN.ne', fin_div h0.ne',
      abs_fin, fin_lt, fin_div hd]
    split_ifs
    · exact ⟨y, rfl, h0, h1⟩
    · obtain ⟨d, e, a, c⟩ := damp_range (dy := (b - u) / ((1 - y) ^ (q - 1) * y ^ (p - 1) / N)) h0 h1
      rw [e, Option.bind_some, fin_sub]
      exact ih _ a c

theorem exp_mul_log {a b : ℝ} (h : 0 < a) : Real.exp (b * Real.log a) = a ^ b := by
  rw [Real.rpow_def_of_pos h, mul_comm]

theorem guess_small (hp : 0 < p) (hq : 0 < q) (hpq : ¬(1 / 2 ≤ p ∧ 1 / 2 ≤ q)) {u : ℝ} (h0 : 0 < u) (h1 : u < 1) (rnd : XR → XR) :
    ∃ w t : ℝ, w = (p / (p + q)) ^ p / p + (q / (p + q)) ^ q / q ∧ t = (p / (p + q)) ^ p / p / w ∧ invBetaGuess rnd (fin u) (fin p) (fin q) =
      if u < t then fin ((p * w * u) ^ (1 / p)) else rnd (fin (1 - (q * w * (1 - u)) ^ (1 / q))) := by
  have hs : 0 < p + q := by linarith
  have hpp : 0 < p / (p + q) := by positivity
  have hqq : 0 < q / (p + q) := by positivity
  have hw : 0 < (p / (p + q)) ^ p / p + (q / (p + q)) ^ q / q := by positivity
  refine ⟨_, _, rfl, rfl, ?_⟩
  rw [invBetaGuess]
  simp only [ofNat_fin, fin_mul, fin_le, fin_add, fin_sub, Nat.cast_one, Nat.cast_ofNat]
  rw [if_neg (by intro h; exact hpq ⟨by linarith [h.1], by linarith [h.2]⟩)]
  simp only [fin_div hs.ne', ln_fin hpp, ln_fin hqq, fin_mul, exp_fin, fin_div hp.ne', fin_div hq.ne', fin_add, exp_mul_log hpp, exp_mul_log hqq]
  rw [fin_div hw.ne', pow_fin (by positivity), pow_fin (mul_pos (mul_pos hq hw) (by linarith))]
  simp only [fin_lt, fin_sub]

theorem guess_range (hp : 0 < p) (hq : 0 < q) {u : ℝ} (h0 : 0 < u) (h1 : u < 1) :
    ∃ y : ℝ, invBetaGuess id (fin u) (fin p) (fin q) = fin y ∧ 0 < y ∧ y < 1 := by
  by_cases hc : 1 / 2 ≤ p ∧ 1 / 2 ≤ q
  · have hd : 0 < 3 * p + 3 * q - 2 := by linarith [hc.1, hc.2]
    refine ⟨_, guess_median hc.1 hc.2 id u, div_pos (by linarith [hc.1]) hd, ?_⟩
    rw [div_lt_one hd]; linarith [hc.2]
  · obtain ⟨w, t, hw, ht, e⟩ := guess_small hp hq hc h0 h1 id
    have hs : 0 < p + q := by linarith
    have hpp : 0 < p / (p + q) := by positivity
    have hqq : 0 < q / (p + q) := by positivity
    have hp1 : p / (p + q) < 1 := by rw [div_lt_one hs]; linarith
    have hq1 : q / (p + q) < 1 := by rw [div_lt_one hs]; linarith
    have hP := Real.rpow_pos_of_pos hpp p
    have hQ := Real.rpow_pos_of_pos hqq q
    have hw0 : 0 < w := by rw [hw]; positivity
    rw [e]
    split_ifs with hut
    · refine ⟨_, rfl, Real.rpow_pos_of_pos (by positivity) _, ?_⟩
      refine Real.rpow_lt_one (by positivity) ?_ (by positivity)
      rw [ht, lt_div_iff₀ hw0, lt_div_iff₀ hp] at hut
      have := Real.rpow_lt_one hpp.le hp1 hp
      nlinarith
    · refine ⟨_, rfl, ?_, ?_⟩
      · have : (q * w * (1 - u)) ^ (1 / q) < 1 := by
          refine Real.rpow_lt_one (mul_nonneg (by positivity) (by linarith)) ?_ (by positivity)
          push Not at hut
          rw [ht, div_le_iff₀ hw0] at hut
          have h2 : w * (1 - u) ≤ (q / (p + q)) ^ q / q := by
            have : w = (p / (p + q)) ^ p / p + (q / (p + q)) ^ q / q := hw
            linarith
          rw [le_div_iff₀ hq] at h2
          have := Real.rpow_lt_one hqq.le hq1 hq
          nlinarith
        linarith
      · have := Real.rpow_pos_of_pos (mul_pos (mul_pos hq hw0) (by linarith : 0 < 1 - u)) (1 / q)
        linarith

theorem invBetaI_range {L : Limits} {BI : XR → XR → XR → XR → Option XR} {u N : ℝ} (hp : 0 < p) (hq : 0 < q) (hN : 0 < N)
    (hBI : ∀ y : ℝ, 0 < y → y < 1 → ∃ b : ℝ, BI (fin y) (fin p) (fin q) (fin N) = some (fin b)) (h0 : 0 < u) (h1 : u < 1) :
    ∃ r : ℝ, invBetaI L id BI (fin u) (fin p) (fin q) (fin N) = some (fin r) ∧ 0 ≤ r ∧ r ≤ 1 := by
  rw [invBetaI]
  split_ifs
  · exact ⟨0, by simp, le_rfl, zero_le_one⟩
  · exact ⟨1, by simp, zero_le_one, le_rfl⟩
  · obtain ⟨y, e, a, b⟩ := guess_range hp hq h0 h1
    rw [e]
    obtain ⟨r, e, a, b⟩ := loop_range (L := L) (u := u) hN hBI L.digits y a b
    exact ⟨r, e, a.le, b.le⟩

/-! ### The start rounded to one -/

theorem damp_one : damp (fin 1) (fin 0) = none := by
  rw [damp, dif_neg]
  push Not
  intro k
  right
  rw [repeat_fin]; simp

theorem loop_one {L : Limits} {BI : XR → XR → XR → XR → Option XR} {u N : ℝ} (hN : 0 < N) (hq : q < 1)
    (hBI : BI (fin 1) (fin p) (fin q) (fin N) = some (fin 1)) (hu : 2 * L.epsilon ≤ 1 - u) (k : ℕ) :
    invBetaLoop L BI (fin u) (fin p) (fin q) (fin N) (k + 1) (fin 1) = none := by
  rw [invBetaLoop, hBI, Option.bind_some]
  have hpow : XR.pow (fin 0) (fin (q - 1)) = pinf := by
    simp only [XR.pow]
    rw [if_neg (by linarith), if_neg (lt_irrefl _), if_pos trivial, if_neg (by linarith)]
  have hm : pinf * fin 1 = pinf := by show infSign 1 = pinf; simp [infSign]
  have hdiv : pinf / fin N = pinf := by show (if N < 0 then ninf else pinf) = pinf; rw [if_neg (by linarith)]
  have hz : ∀ a : ℝ, fin a / pinf = fin 0 := fun a => rfl
  simp only [fin_sub, ofNat_fin, Nat.cast_one, Nat.cast_ofNat, sub_self, hpow, pow_fin one_pos, Real.one_rpow, hm, hdiv, hz, fin_div one_ne_zero, div_one,
    abs_fin, fin_mul, fin_lt, damp_one, Option.bind_none]
  rw [if_neg]
  push Not
  exact hu.trans (le_abs_self _)

end Trng.BetaSeries
