import Verif.Proofs.GammaSer

/-! The continued fraction of the complementary incomplete Gamma function.  Its tails are quotients of the integrals `K`. -/
namespace Trng.GammaFraction
open Set MeasureTheory XR Special BetaSeries GammaSeries Filter

variable {a x : ℝ}

/-- The integrand of the complementary incomplete Gamma function, times a power of `(t - x) / t`. -/
noncomputable def k (a x : ℝ) (n : ℕ) (t : ℝ) : ℝ := ((t - x) / t) ^ n * (t ^ (a - 1) * Real.exp (-t))

noncomputable def K (a x : ℝ) (n : ℕ) : ℝ := ∫ t in Ioi x, k a x n t

theorem k_nonneg (hx : 0 < x) (n : ℕ) {t : ℝ} (ht : t ∈ Ioi x) : 0 ≤ k a x n t := by
  have h : x < t := ht
  have h0 : 0 < t := hx.trans h
  have h1 : 0 ≤ (t - x) / t := div_nonneg (by linarith) h0.le
  unfold k; positivity

theorem k_pos (hx : 0 < x) (n : ℕ) {t : ℝ} (ht : t ∈ Ioi x) : 0 < k a x n t := by
  have h : x < t := ht
  have h0 : 0 < t := hx.trans h
  have h1 : 0 < (t - x) / t := div_pos (by linarith) h0
  unfold k; positivity

theorem k_succ_le (hx : 0 < x) (n : ℕ) {t : ℝ} (ht : t ∈ Ioi x) : k a x (n + 1) t ≤ k a x n t := by
  have h : x < t := ht
  have h0 : 0 < t := hx.trans h
  have h2 : (t - x) / t ≤ 1 := by rw [div_le_one h0]; linarith
  have e : k a x (n + 1) t = (t - x) / t * k a x n t := by unfold k; ring
  rw [e]
  exact mul_le_of_le_one_left (k_nonneg hx n ht) h2

theorem k_le (hx : 0 < x) (n : ℕ) {t : ℝ} (ht : t ∈ Ioi x) : k a x n t ≤ t ^ (a - 1) * Real.exp (-t) := by
  induction n with
  | zero => simp [k]
  | succ n ih => exact (k_succ_le hx n ht).trans ih

theorem base_integrable (ha : 0 < a) (hx : 0 ≤ x) : IntegrableOn (fun t : ℝ => t ^ (a - 1) * Real.exp (-t)) (Ioi x) := by
  have h := (Real.GammaIntegral_convergent ha).mono_set (Ioi_subset_Ioi hx)
  exact h.congr_fun (fun t _ => mul_comm _ _) measurableSet_Ioi

theorem k_integrable (ha : 0 < a) (hx : 0 < x) (n : ℕ) : IntegrableOn (k a x n) (Ioi x) := by
  refine Integrable.mono' (base_integrable ha hx.le) ?_ ?_
  · refine ContinuousOn.aestronglyMeasurable ?_ measurableSet_Ioi
    intro t ht
    have h0 : t ≠ 0 := (hx.trans ht).ne'
    refine ContinuousAt.continuousWithinAt ?_
    exact (((continuousAt_id.sub continuousAt_const).div continuousAt_id h0).pow n).mul
      ((Real.continuousAt_rpow_const t (a - 1) (Or.inl h0)).mul (by fun_prop))
  · refine (ae_restrict_iff' measurableSet_Ioi).2 (Eventually.of_forall fun t ht => ?_)
    rw [Real.norm_of_nonneg (k_nonneg hx n ht)]
    exact k_le hx n ht

theorem K_pos (ha : 0 < a) (hx : 0 < x) (n : ℕ) : 0 < K a x n := by
  rw [K, setIntegral_pos_iff_support_of_nonneg_ae]
  · have : Function.support (k a x n) ∩ Ioi x = Ioi x :=
      inter_eq_right.2 fun t ht => (k_pos hx n ht).ne'
    rw [this]; simp
  · exact (ae_restrict_iff' measurableSet_Ioi).2 (Eventually.of_forall fun t ht => k_nonneg hx n ht)
  · exact k_integrable ha hx n

theorem K_succ_le (ha : 0 < a) (hx : 0 < x) (n : ℕ) : K a x (n + 1) ≤ K a x n :=
  setIntegral_mono_on (k_integrable ha hx _) (k_integrable ha hx _) measurableSet_Ioi fun _ ht => k_succ_le hx n ht

/-- The partial denominators. -/
noncomputable def b (a x : ℝ) (n : ℕ) : ℝ := x + (2 * n + 1) - a

theorem k_deriv (hx : 0 < x) (n : ℕ) {t : ℝ} (ht : x < t) :
    HasDerivAt (fun t => x * k a x n t) (n * k a x (n - 1) t - b a x n * k a x n t + (n + 1 - a) * k a x (n + 1) t) t := by
  have h0 : 0 < t := hx.trans ht
  have h1 := ((hasDerivAt_id t).sub_const x).div (hasDerivAt_id t) h0.ne'
  have h2 := Real.hasDerivAt_rpow_const (x := t) (p := a - 1) (Or.inl h0.ne')
  have h3 := (hasDerivAt_neg t).exp
  have h := ((h1.pow n).mul (h2.mul h3)).const_mul x
  refine h.congr_deriv ?_
  have e : t ^ (a - 1) = t ^ (a - 1 - 1) * t := by
    rw [← Real.rpow_add_one h0.ne']; congr 1; ring
  simp only [id, k, b, Pi.div_apply, Pi.mul_apply, Pi.pow_apply]
  simp only [e]
  generalize t ^ (a - 1 - 1) = g
  generalize Real.exp (-t) = q
  rcases n with _ | n
  · simp; field_simp; ring
  · simp only [Nat.add_sub_cancel, pow_succ, Nat.cast_add, Nat.cast_one]
    generalize ((t - x) / t) ^ n = p
    field_simp; ring

theorem k_tendsto (hx : 0 < x) (n : ℕ) : Tendsto (fun t => x * k a x n t) atTop (nhds 0) := by
  rw [← mul_zero x]
  refine Tendsto.const_mul x ?_
  have h := tendsto_rpow_mul_exp_neg_mul_atTop_nhds_zero (a - 1) 1 one_pos
  refine tendsto_of_tendsto_of_tendsto_of_le_of_le' tendsto_const_nhds h ?_ ?_
  · filter_upwards [eventually_gt_atTop x] with t ht using k_nonneg hx n ht
  · filter_upwards [eventually_gt_atTop x] with t ht
    simpa using k_le (a := a) hx n ht

theorem K_rec (ha : 0 < a) (hx : 0 < x) (n : ℕ) :
    n * K a x (n - 1) - b a x n * K a x n + (n + 1 - a) * K a x (n + 1) = -(x * k a x n x) := by
  have i1 := ((k_integrable ha hx (n - 1)).const_mul (n : ℝ))
  have i2 := ((k_integrable ha hx n).const_mul (b a x n))
  have i3 := ((k_integrable ha hx (n + 1)).const_mul (n + 1 - a))
  have hc : ContinuousWithinAt (fun t => x * k a x n t) (Ici x) x := by
    refine ContinuousAt.continuousWithinAt ?_
    have h0 := hx.ne'
    exact continuousAt_const.mul ((((continuousAt_id.sub continuousAt_const).div continuousAt_id h0).pow n).mul
      ((Real.continuousAt_rpow_const x (a - 1) (Or.inl h0)).mul (by fun_prop)))
  have h := integral_Ioi_of_hasDerivAt_of_tendsto hc (fun t ht => k_deriv hx n ht) ((i1.sub i2).add i3) (k_tendsto (a := a) hx n)
  rw [zero_sub] at h
  have e1 := integral_add (i1.sub i2) i3
  have e2 := integral_sub i1 i2
  simp only [Pi.sub_apply, integral_const_mul] at e1 e2
  rw [← h, e1, e2]
  rfl

theorem K_rec_zero (ha : 0 < a) (hx : 0 < x) : b a x 0 * K a x 0 - (1 - a) * K a x 1 = x ^ a * Real.exp (-x) := by
  have h := K_rec ha hx 0
  have e : x ^ a = x ^ (a - 1) * x := by rw [← Real.rpow_add_one hx.ne']; congr 1; ring
  simp only [k, Nat.cast_zero, zero_mul, zero_add, zero_sub, pow_zero, one_mul] at h
  rw [e]; linarith

theorem K_rec_succ (ha : 0 < a) (hx : 0 < x) (n : ℕ) :
    (n + 1) * K a x n - b a x (n + 1) * K a x (n + 1) + (n + 2 - a) * K a x (n + 2) = 0 := by
  have h := K_rec ha hx (n + 1)
  simp only [k, sub_self, zero_div, Nat.add_sub_cancel, ne_eq, Nat.succ_ne_zero, not_false_eq_true, zero_pow, zero_mul, mul_zero, neg_zero,
    Nat.cast_add, Nat.cast_one] at h
  rw [show (n : ℝ) + 2 - a = n + 1 + 1 - a by ring]
  linarith

/-- A solution of the recurrence of the numerators and denominators; the index is shifted by one. -/
noncomputable def seq (a x u v : ℝ) : ℕ → ℝ
  | 0 => u
  | 1 => v
  | n + 2 => b a x (n + 1) * seq a x u v (n + 1) - (n + 1) * (n + 1 - a) * seq a x u v n

theorem seq_two (a x u v : ℝ) (n : ℕ) :
    seq a x u v (n + 2) = b a x (n + 1) * seq a x u v (n + 1) - (n + 1) * (n + 1 - a) * seq a x u v n := by
  rw [seq]

/-- A solution together with the integrals. -/
theorem seq_K (ha : 0 < a) (hx : 0 < x) (u v : ℝ) (n : ℕ) :
    seq a x u v (n + 1) * K a x n - (n + 1 - a) * seq a x u v n * K a x (n + 1) = n.factorial * (v * K a x 0 - (1 - a) * u * K a x 1) := by
  induction n with
  | zero => simp [seq]
  | succ n ih =>
    have h := K_rec_succ ha hx n
    rw [Nat.factorial_succ, Nat.cast_mul, mul_assoc ((n + 1 : ℕ) : ℝ), ← ih, seq_two]
    push_cast
    rw [show (n : ℝ) + 1 + 1 - a = n + 2 - a by ring]
    linear_combination -seq a x u v (n + 1) * h

/-- The determinant of two solutions. -/
theorem seq_det (a x u v u' v' : ℝ) (n : ℕ) :
    seq a x u v (n + 1) * seq a x u' v' n - seq a x u v n * seq a x u' v' (n + 1) =
      (v * u' - u * v') * ∏ i ∈ Finset.range n, (((i : ℝ) + 1) * (i + 1 - a)) := by
  induction n with
  | zero => simp [seq]
  | succ n ih =>
    rw [Finset.prod_range_succ, ← mul_assoc, ← ih, seq_two, seq_two]; ring

/-- The denominators grow. -/
theorem seq_ratio (_ha : 0 ≤ a) (hx1 : 1 ≤ x) (hx : a + 1 ≤ x) (n : ℕ) :
    0 < seq a x 1 (b a x 0) n ∧ (n + 2) * seq a x 1 (b a x 0) n ≤ seq a x 1 (b a x 0) (n + 1) := by
  induction n with
  | zero => simp [seq, b]; linarith
  | succ n ih =>
    obtain ⟨h0, h1⟩ := ih
    have h2 : 0 < seq a x 1 (b a x 0) (n + 1) := lt_of_lt_of_le (by positivity) h1
    refine ⟨h2, ?_⟩
    rw [seq_two]
    have hbn : b a x (n + 1) = x + (2 * (n + 1) + 1) - a := by rw [b]; push_cast; ring
    rw [hbn]
    push_cast
    set u := seq a x 1 (b a x 0) (n + 1)
    set w := seq a x 1 (b a x 0) n
    have hn : (0 : ℝ) ≤ n := Nat.cast_nonneg n
    rcases le_total a (n + 1) with h | h
    · have h3 : ((n : ℝ) + 1) * (n + 1 - a) * w ≤ (n + 1 - a) * u := by
        have : ((n : ℝ) + 1) * w ≤ u := by nlinarith
        nlinarith
      nlinarith
    · have h3 : ((n : ℝ) + 1) * (n + 1 - a) * w ≤ 0 := by
        have : ((n : ℝ) + 1) * w * (n + 1 - a) ≤ 0 := mul_nonpos_of_nonneg_of_nonpos (by positivity) (by linarith)
        linarith
      nlinarith

/-- The smallest growth, that of `a = 0` and `x = z`. -/
def N (z : ℕ) : ℕ → ℤ
  | 0 => 1
  | 1 => z + 1
  | n + 2 => (z + 2 * (n + 1) + 1) * N z (n + 1) - (n + 1) ^ 2 * N z n

theorem N_cast (z n : ℕ) : ((N z n : ℤ) : ℝ) = seq 0 z 1 (b 0 z 0) n := by
  induction n using Nat.strong_induction_on with
  | _ n ih =>
    rcases n with _ | _ | n
    · simp [N, seq]
    · simp [N, seq, b]
    · rw [N, seq_two, ← ih n (by omega), ← ih (n + 1) (by omega), b]; push_cast; ring

theorem N_pos {z : ℕ} (hz : 1 ≤ z) (n : ℕ) : (0 : ℝ) < N z n := by
  rw [N_cast]
  have : (1 : ℝ) ≤ z := by exact_mod_cast hz
  exact (seq_ratio le_rfl this (by simpa using this) n).1

theorem N_two (z n : ℕ) : (N z (n + 2) : ℝ) = (z + 2 * (n + 1) + 1) * N z (n + 1) - (n + 1) ^ 2 * N z n := by
  rw [N]; push_cast; ring

/-- Comparison of growths. -/
theorem seq_growth {z : ℕ} {u v : ℝ} (hz : 1 ≤ z) (ha : 0 ≤ a) (hx : a + z ≤ x) (hv : 0 < v)
    (h2 : N z 2 * v ≤ N z 1 * seq a x u v 2) (n : ℕ) :
    0 < seq a x u v (n + 1) ∧ N z (n + 2) * seq a x u v (n + 1) ≤ N z (n + 1) * seq a x u v (n + 2) := by
  induction n with
  | zero => exact ⟨by simpa [seq] using hv, by simpa [seq] using h2⟩
  | succ n ih =>
    obtain ⟨h0, h1⟩ := ih
    have p1 := N_pos hz (n + 1)
    have p2 := N_pos hz (n + 2)
    have h3 : 0 < seq a x u v (n + 2) := by
      by_contra h
      have := mul_pos p2 h0
      have := mul_nonpos_of_nonneg_of_nonpos p1.le (not_lt.1 h)
      linarith
    refine ⟨h3, ?_⟩
    rw [seq_two a x u v (n + 1), N_two z (n + 1), b]
    push_cast
    set s := seq a x u v (n + 2)
    set w := seq a x u v (n + 1)
    have hn : (0 : ℝ) ≤ n := Nat.cast_nonneg n
    have hb : ((z : ℝ) + 2 * (n + 1 + 1) + 1) * s ≤ (x + (2 * (n + 1 + 1) + 1) - a) * s := by nlinarith
    have he : ((n : ℝ) + 1 + 1) * (n + 1 + 1 - a) * w ≤ (n + 1 + 1) ^ 2 * w := by
      have : ((n : ℝ) + 1 + 1) * (n + 1 + 1 - a) ≤ (n + 1 + 1) ^ 2 := by nlinarith
      exact mul_le_mul_of_nonneg_right this h0.le
    have := mul_le_mul_of_nonneg_left hb p2.le
    have := mul_le_mul_of_nonneg_left he p2.le
    have h4 : ((n : ℝ) + 1 + 1) ^ 2 * (N z (n + 2) * w) ≤ (n + 1 + 1) ^ 2 * (N z (n + 1) * s) :=
      mul_le_mul_of_nonneg_left h1 (by positivity)
    nlinarith

theorem seq_lower {z : ℕ} {u v : ℝ} (hz : 1 ≤ z) (ha : 0 ≤ a) (hx : a + z ≤ x) (hv : 0 < v)
    (h2 : N z 2 * v ≤ N z 1 * seq a x u v 2) (n : ℕ) : v * N z (n + 1) ≤ (z + 1) * seq a x u v (n + 1) := by
  induction n with
  | zero => simp [seq, N]; linarith
  | succ n ih =>
    have h := (seq_growth hz ha hx hv h2 n).2
    have p1 := N_pos hz (n + 1)
    have p2 := N_pos hz (n + 2)
    have h3 := mul_le_mul_of_nonneg_left ih p2.le
    have h4 : N z (n + 1) * (v * N z (n + 2)) ≤ N z (n + 1) * ((z + 1) * seq a x u v (n + 2)) := by nlinarith
    exact le_of_mul_le_mul_left h4 p1

/-- The denominators and the numerators as the loop computes them; `μ` is the number it takes for nought. -/
noncomputable def B (a x : ℝ) : ℕ → ℝ := seq a x 1 (b a x 0)
noncomputable def A (a x μ : ℝ) : ℕ → ℝ := seq a x μ 1

theorem N_one (z : ℕ) : (N z 1 : ℝ) = z + 1 := by simp [N]
theorem N_2 (z : ℕ) : (N z 2 : ℝ) = (z + 3) * (z + 1) - 1 := by
  have := N_two z 0
  simp only [zero_add, Nat.cast_zero, N_one] at this
  rw [this, show (N z 0 : ℝ) = 1 by simp [N]]; ring

theorem b_ge {z : ℕ} (hx : a + z ≤ x) (n : ℕ) : z + (2 * n + 1) ≤ b a x n := by rw [b]; linarith

theorem B_start {z : ℕ} (hz : 1 ≤ z) (ha : 0 ≤ a) (hx : a + z ≤ x) : N z 2 * b a x 0 ≤ N z 1 * seq a x 1 (b a x 0) 2 := by
  have h0 := b_ge hx 0
  have h1 := b_ge hx 1
  have hz1 : (1 : ℝ) ≤ z := by exact_mod_cast hz
  rw [N_one, N_2, seq_two]
  simp only [seq]
  push_cast at *
  have h2 : ((z : ℝ) + 3) * b a x 0 ≤ b a x (0 + 1) * b a x 0 := by
    rw [zero_add]; exact mul_le_mul_of_nonneg_right (by linarith) (by linarith)
  nlinarith

theorem A_start {z : ℕ} {μ : ℝ} (hz : 1 ≤ z) (ha : 0 ≤ a) (hx : a + z ≤ x) (hμ : 0 ≤ μ) (hμ1 : μ * (z + 1) ≤ 1) : N z 2 * 1 ≤ N z 1 * seq a x μ 1 2 := by
  have h1 := b_ge hx 1
  have hz1 : (1 : ℝ) ≤ z := by exact_mod_cast hz
  rw [N_one, N_2, seq_two]
  simp only [seq]
  push_cast at *
  rw [zero_add]
  have h2 : μ * (z + 1) * (1 - a) ≤ 1 := by
    have := mul_nonneg (mul_nonneg hμ (by linarith : (0 : ℝ) ≤ z + 1)) ha
    nlinarith
  nlinarith

theorem prod_abs_le (ha : 0 ≤ a) (n : ℕ) (h : a ≤ n + 1) : ∏ i ∈ Finset.range n, |(i : ℝ) + 1 - a| ≤ n.factorial := by
  induction n with
  | zero => simp
  | succ n ih =>
    rcases le_total a (n + 1) with h1 | h1
    · rw [Finset.prod_range_succ, Nat.factorial_succ, Nat.cast_mul, mul_comm]
      have h2 : |(n : ℝ) + 1 - a| ≤ ((n + 1 : ℕ) : ℝ) := by rw [abs_of_nonneg (by linarith)]; push_cast; linarith
      exact mul_le_mul h2 (ih h1) (Finset.prod_nonneg fun _ _ => abs_nonneg _) (by positivity)
    · rw [← Finset.prod_range_add_one_eq_factorial, ← Finset.prod_range_reflect, Nat.cast_prod]
      refine Finset.prod_le_prod (fun _ _ => abs_nonneg _) fun i hi => ?_
      have hi := Finset.mem_range.1 hi
      have : ((n + 1 - 1 - i : ℕ) : ℝ) = n - i := by
        rw [Nat.add_sub_cancel, Nat.cast_sub (by omega)]
      rw [this, abs_of_nonpos (by have : (0 : ℝ) ≤ i := Nat.cast_nonneg i; linarith)]
      push_cast at *
      linarith

/-- The relative difference of two successive convergents. -/
noncomputable def gap (a x μ : ℝ) (n : ℕ) : ℝ :=
  |A a x μ (n + 1) * B a x n - A a x μ n * B a x (n + 1)| / (A a x μ (n + 1) * B a x n)

theorem gap_eq (a x μ : ℝ) (n : ℕ) : |A a x μ (n + 1) * B a x n - A a x μ n * B a x (n + 1)| =
    |1 - μ * b a x 0| * ((n.factorial : ℝ) * ∏ i ∈ Finset.range n, |(i : ℝ) + 1 - a|) := by
  rw [A, B, seq_det, abs_mul, one_mul, Finset.abs_prod]
  congr 1
  rw [← Finset.prod_range_add_one_eq_factorial, Nat.cast_prod, ← Finset.prod_mul_distrib]
  refine Finset.prod_congr rfl fun i _ => ?_
  rw [abs_mul, abs_of_nonneg (by positivity)]; push_cast; rfl

theorem first_le {z : ℕ} {μ : ℝ} (hx : a + z ≤ x) (hμ : 0 ≤ μ) (hμ1 : μ * (z + 1) ≤ 1) : |1 - μ * b a x 0| * (z + 1) ≤ b a x 0 := by
  have h0 := b_ge hx 0
  have hz0 : (0 : ℝ) ≤ z := Nat.cast_nonneg z
  push_cast at h0
  have h1 : 0 ≤ μ * b a x 0 := mul_nonneg hμ (by linarith)
  rcases abs_cases (1 - μ * b a x 0) with ⟨e, -⟩ | ⟨e, -⟩ <;> rw [e] <;> nlinarith

theorem gap_le {z n : ℕ} {μ : ℝ} (hz : 1 ≤ z) (ha : 0 ≤ a) (hx : a + z ≤ x) (hμ : 0 ≤ μ) (hμ1 : μ * (z + 1) ≤ 1) (hn : 0 < n) (han : a ≤ n + 1) :
    gap a x μ n ≤ (n.factorial : ℝ) ^ 2 * (z + 1) / (N z (n + 1) * N z n) := by
  obtain ⟨m, rfl⟩ : ∃ m, n = m + 1 := ⟨n - 1, by omega⟩
  have hb0 : 0 < b a x 0 := by
    have := b_ge hx 0; push_cast at this; have hz0 : (0 : ℝ) ≤ z := Nat.cast_nonneg z; linarith
  have hA := seq_lower hz ha hx one_pos (A_start hz ha hx hμ hμ1) (m + 1)
  have hA0 := (seq_growth hz ha hx one_pos (A_start hz ha hx hμ hμ1) (m + 1)).1
  have hB := seq_lower hz ha hx hb0 (B_start hz ha hx) m
  have hB0 := (seq_growth hz ha hx hb0 (B_start hz ha hx) m).1
  have hp1 := N_pos hz (m + 1)
  have hp2 := N_pos hz (m + 1 + 1)
  have hF := prod_abs_le ha (m + 1) han
  have hF0 : (0 : ℝ) < (m + 1).factorial := by exact_mod_cast Nat.factorial_pos _
  have hc := first_le hx hμ hμ1
  rw [gap, gap_eq, A, B, div_le_div_iff₀ (mul_pos hA0 hB0) (by positivity)]
  set F : ℝ := ((m + 1).factorial : ℝ)
  set P := ∏ i ∈ Finset.range (m + 1), |(i : ℝ) + 1 - a|
  have hP0 : 0 ≤ P := Finset.prod_nonneg fun _ _ => abs_nonneg _
  set u := seq a x μ 1 (m + 1 + 1)
  set w := seq a x 1 (b a x 0) (m + 1)
  have hz0 : (0 : ℝ) < z + 1 := by positivity
  have e1 : F * P ≤ F ^ 2 := by rw [sq]; exact mul_le_mul_of_nonneg_left hF hF0.le
  have e2 : (N z (m + 1 + 1) : ℝ) * (b a x 0 * N z (m + 1)) ≤ ((z + 1) * u) * ((z + 1) * w) :=
    mul_le_mul (by linarith) hB (by positivity) (by positivity)
  have e3 : |1 - μ * b a x 0| * (z + 1) * (N z (m + 1 + 1) * N z (m + 1)) ≤ b a x 0 * (N z (m + 1 + 1) * N z (m + 1)) :=
    mul_le_mul_of_nonneg_right hc (by positivity)
  have e4 : |1 - μ * b a x 0| * (N z (m + 1 + 1) * N z (m + 1)) ≤ (z + 1) * (u * w) := by
    have : (z + 1) * (|1 - μ * b a x 0| * (N z (m + 1 + 1) * N z (m + 1))) ≤ (z + 1) * ((z + 1) * (u * w)) := by nlinarith
    exact le_of_mul_le_mul_left this hz0
  calc |1 - μ * b a x 0| * (F * P) * (N z (m + 1 + 1) * N z (m + 1))
      = (F * P) * (|1 - μ * b a x 0| * (N z (m + 1 + 1) * N z (m + 1))) := by ring
    _ ≤ F ^ 2 * ((z + 1) * (u * w)) := mul_le_mul e1 e4 (by positivity) (by positivity)
    _ = _ := by ring

/-- Where all terms are positive. -/
theorem positive {μ : ℝ} (hb : ∀ m, 0 < b a x m) (hμ : 0 ≤ μ) (m : ℕ) (h : (m : ℝ) ≤ a) :
    0 ≤ A a x μ m ∧ 0 < A a x μ (m + 1) ∧ 0 < B a x m ∧ b a x m * B a x m ≤ B a x (m + 1) ∧ (0 < m → b a x m * A a x μ m ≤ A a x μ (m + 1)) := by
  induction m with
  | zero => exact ⟨by simpa [A, seq] using hμ, by simp [A, seq], by simp [B, seq], by simp [B, seq], fun h => absurd h (lt_irrefl 0)⟩
  | succ m ih =>
    push_cast at h
    obtain ⟨h1, h2, h3, h4, -⟩ := ih (by linarith)
    have hB : 0 < B a x (m + 1) := lt_of_lt_of_le (mul_pos (hb m) h3) h4
    have e : ((m : ℝ) + 1) * (m + 1 - a) * A a x μ m ≤ 0 := by
      have : ((m : ℝ) + 1) * A a x μ m * (m + 1 - a) ≤ 0 := mul_nonpos_of_nonneg_of_nonpos (by positivity) (by linarith)
      linarith
    have e' : ((m : ℝ) + 1) * (m + 1 - a) * B a x m ≤ 0 := by
      have : ((m : ℝ) + 1) * B a x m * (m + 1 - a) ≤ 0 := mul_nonpos_of_nonneg_of_nonpos (by positivity) (by linarith)
      linarith
    have g : b a x (m + 1) * A a x μ (m + 1) ≤ A a x μ (m + 2) := by
      rw [A, seq_two]; rw [A] at e; linarith
    have g' : b a x (m + 1) * B a x (m + 1) ≤ B a x (m + 2) := by
      rw [B, seq_two]; rw [B] at e'; linarith
    exact ⟨h2.le, lt_of_lt_of_le (mul_pos (hb _) h2) g, hB, g', fun _ => g⟩

/-- The same for an `a` beyond all indices. -/
theorem gap_le_large {μ : ℝ} (ha : 1 ≤ a) (hx : 235 / 100 * a ≤ x) (hμ : 0 ≤ μ) (hμ1 : μ * 2 ≤ 1) (n : ℕ) (han : (n : ℝ) + 1 ≤ a) :
    gap a x μ (n + 1) ≤ (10 / 27) ^ (n + 1) := by
  have hb : ∀ m : ℕ, 135 / 100 * a + (2 * m + 1) ≤ b a x m := fun m => by rw [b]; linarith
  have hb0 : ∀ m : ℕ, 0 < b a x m := fun m => lt_of_lt_of_le (by positivity) (hb m)
  induction n with
  | zero =>
    obtain ⟨-, h2, h3, h4, h5⟩ := positive (x := x) hb0 hμ 1 (by simpa using ha)
    have h5 := h5 one_pos
    have hA1 : A a x μ 1 = 1 := rfl
    have hB1 : B a x 1 = b a x 0 := rfl
    have hc := first_le (a := a) (x := x) (z := 1) (by push_cast; linarith) hμ (by push_cast; linarith)
    rw [gap, gap_eq, div_le_iff₀ (mul_pos h2 h3), hB1]
    rw [hA1] at h5
    simp only [zero_add, Nat.factorial_one, Finset.prod_range_one, Nat.cast_zero, Nat.cast_one, one_mul, pow_one] at *
    rw [abs_of_nonpos (by linarith : 1 - a ≤ 0)]
    have h1 := hb 1
    have hb00 := hb0 0
    have e1 : -(1 - a) ≤ 20 / 27 * A a x μ (1 + 1) := by push_cast at h1; linarith
    calc |1 - μ * b a x 0| * -(1 - a) ≤ (b a x 0 / 2) * (20 / 27 * A a x μ (1 + 1)) :=
          mul_le_mul (by linarith) e1 (by linarith) (by positivity)
      _ = _ := by ring
  | succ n ih =>
    push_cast at han
    have ih := ih (by linarith)
    obtain ⟨-, p2, p3, p4, -⟩ := positive (x := x) hb0 hμ (n + 1) (by push_cast; linarith)
    obtain ⟨-, q2, q3, q4, q5⟩ := positive (x := x) hb0 hμ (n + 2) (by push_cast; linarith)
    have q5 := q5 (by omega)
    rw [gap, gap_eq, div_le_iff₀ (mul_pos p2 p3)] at ih
    rw [gap, gap_eq, div_le_iff₀ (mul_pos q2 q3), Finset.prod_range_succ, Nat.factorial_succ]
    set P := ∏ i ∈ Finset.range (n + 1), |(i : ℝ) + 1 - a|
    have hP0 : 0 ≤ P := Finset.prod_nonneg fun _ _ => abs_nonneg _
    push_cast
    rw [abs_of_nonpos (by linarith : (n : ℝ) + 1 + 1 - a ≤ 0)]
    have h1 := hb (n + 1)
    have h2 := hb (n + 2)
    push_cast at h1 h2
    have hn : (0 : ℝ) ≤ n := Nat.cast_nonneg n
    have e1 : ((n : ℝ) + 1 + 1) * -(n + 1 + 1 - a) ≤ 10 / 27 * (b a x (n + 2) * b a x (n + 1)) := by
      have f1 : ((n : ℝ) + 1 + 1) * 2 ≤ b a x (n + 2) := by linarith
      have f2 : -((n : ℝ) + 1 + 1 - a) ≤ 20 / 27 * b a x (n + 1) := by linarith
      have := mul_le_mul f1 f2 (by linarith) (hb0 _).le
      linarith
    have e2 : (b a x (n + 2) * b a x (n + 1)) * (A a x μ (n + 1 + 1) * B a x (n + 1)) ≤ A a x μ (n + 1 + 1 + 1) * B a x (n + 1 + 1) := by
      have := mul_le_mul q5 p4 (mul_pos (hb0 _) p3).le q2.le
      calc _ = b a x (n + 2) * A a x μ (n + 2) * (b a x (n + 1) * B a x (n + 1)) := by ring
        _ ≤ _ := this
    have hpos : 0 ≤ ((n : ℝ) + 1 + 1) * -(n + 1 + 1 - a) := mul_nonneg (by linarith) (by linarith)
    have hAB : 0 < A a x μ (n + 1 + 1) * B a x (n + 1) := mul_pos p2 p3
    calc |1 - μ * b a x 0| * (((n : ℝ) + 1 + 1) * (n + 1).factorial * (P * -(n + 1 + 1 - a)))
        = (|1 - μ * b a x 0| * ((n + 1).factorial * P)) * (((n : ℝ) + 1 + 1) * -(n + 1 + 1 - a)) := by ring
      _ ≤ ((10 / 27) ^ (n + 1) * (A a x μ (n + 1 + 1) * B a x (n + 1))) * (10 / 27 * (b a x (n + 2) * b a x (n + 1))) :=
          mul_le_mul ih e1 hpos (by positivity)
      _ = (10 / 27) ^ (n + 1 + 1) * ((b a x (n + 2) * b a x (n + 1)) * (A a x μ (n + 1 + 1) * B a x (n + 1))) := by ring
      _ ≤ _ := mul_le_mul_of_nonneg_left e2 (by positivity)

/-! ### From the convergents to the function -/

theorem tail {μ : ℝ} (ha : 0 < a) (hx1 : 1 ≤ x) (hx : a + 1 ≤ x) (n : ℕ) (hA : 0 < A a x μ (n + 1)) :
    |A a x μ (n + 1) / B a x (n + 1) - (K a x 0 - (1 - a) * μ * K a x 1) / (x ^ a * Real.exp (-x))| ≤
      (n + 1) * (gap a x μ n * (A a x μ (n + 1) / B a x (n + 1))) := by
  have hx0 : 0 < x := by linarith
  obtain ⟨hB0, hB⟩ := seq_ratio ha.le hx1 hx n
  have hB1 := (seq_ratio ha.le hx1 hx (n + 1)).1
  have eA := seq_K ha hx0 μ 1 n
  have eB := seq_K ha hx0 1 (b a x 0) n
  have hW := K_rec_zero ha hx0
  rw [mul_one, hW] at eB
  rw [one_mul] at eA
  have hW0 : 0 < x ^ a * Real.exp (-x) := mul_pos (Real.rpow_pos_of_pos hx0 _) (Real.exp_pos _)
  set W := x ^ a * Real.exp (-x)
  have k0 := K_pos ha hx0 n
  have k1 := K_pos ha hx0 (n + 1)
  have k2 := K_succ_le ha hx0 n
  rw [gap]
  change 0 < B a x n at hB0
  change 0 < B a x (n + 1) at hB1
  change (n + 2) * B a x n ≤ B a x (n + 1) at hB
  change A a x μ (n + 1) * K a x n - (n + 1 - a) * A a x μ n * K a x (n + 1) = _ at eA
  change B a x (n + 1) * K a x n - (n + 1 - a) * B a x n * K a x (n + 1) = _ at eB
  set A1 := A a x μ (n + 1)
  set A0 := A a x μ n
  set B1 := B a x (n + 1)
  set B0 := B a x n
  set k := K a x n
  set l := K a x (n + 1)
  have hF : (0 : ℝ) < n.factorial := by exact_mod_cast Nat.factorial_pos _
  set F : ℝ := (n.factorial : ℝ)
  set J := K a x 0 - (1 - a) * μ * K a x 1
  have hn : (0 : ℝ) ≤ n := Nat.cast_nonneg n
  have e : A1 / B1 - J / W = (n + 1 - a) * l * (A0 * B1 - A1 * B0) / (B1 * (F * W)) := by
    rw [div_sub_div _ _ hB1.ne' hW0.ne', div_eq_div_iff (by positivity) (by positivity)]
    have : F * (A1 * W - B1 * J) = (n + 1 - a) * l * (A0 * B1 - A1 * B0) := by linear_combination B1 * eA - A1 * eB
    linear_combination B1 * W * this
  have hD : |(n + 1 - a) * l| * B0 ≤ (n + 1) * (F * W) := by
    rw [← eB, abs_mul, abs_of_pos k1]
    rcases le_total a (n + 1) with h | h
    · rw [abs_of_nonneg (by linarith)]
      have h1 : (n + 2) * B0 * k ≤ B1 * k := mul_le_mul_of_nonneg_right hB k0.le
      have h2 : B0 * l ≤ B0 * k := mul_le_mul_of_nonneg_left k2 hB0.le
      have h3 : 0 < B0 * l := by positivity
      have h4 : B0 * k ≤ B1 * k - (n + 1 - a) * B0 * l := by nlinarith
      nlinarith
    · rw [abs_of_nonpos (by linarith)]
      have h3 : 0 < B0 * l := by positivity
      have h4 : 0 < B1 * k := by positivity
      have h5 : 0 ≤ (a - (n + 1)) * (B0 * l) := mul_nonneg (by linarith) h3.le
      nlinarith
  rw [e, abs_div, abs_of_pos (by positivity : 0 < B1 * (F * W)), abs_mul, div_le_iff₀ (by positivity)]
  rw [abs_sub_comm (A0 * B1)]
  have : (n + 1) * (|A1 * B0 - A0 * B1| / (A1 * B0) * (A1 / B1)) * (B1 * (F * W)) = |A1 * B0 - A0 * B1| * ((n + 1) * (F * W)) / B0 := by
    field_simp
  rw [this, le_div_iff₀ hB0]
  calc |(n + 1 - a) * l| * |A1 * B0 - A0 * B1| * B0 = |A1 * B0 - A0 * B1| * (|(n + 1 - a) * l| * B0) := by ring
    _ ≤ _ := mul_le_mul_of_nonneg_left hD (abs_nonneg _)

/-- The error of replacing nought by `μ`. -/
theorem first_err {n : ℕ} (ha : 0 < a) (hx : a + 1 ≤ x) (h : a ≤ n + 1 ∨ (2 ≤ a ∧ 235 / 100 * a ≤ x)) : |1 - a| * K a x 1 ≤ (n + 1) * K a x 0 := by
  have hx0 : 0 < x := by linarith
  have k0 := K_pos ha hx0 0
  have k1 := K_pos ha hx0 1
  have k2 := K_pos ha hx0 2
  have h01 := K_succ_le ha hx0 0
  have hn : (0 : ℝ) ≤ n := Nat.cast_nonneg n
  rcases h with h | ⟨h, h'⟩
  · have : |1 - a| ≤ n + 1 := abs_le.2 ⟨by linarith, by linarith⟩
    exact mul_le_mul this h01 k1.le (by positivity)
  · have e := K_rec_succ ha hx0 0
    rw [abs_of_nonpos (by linarith)]
    simp only [b] at e
    push_cast at e
    simp only [zero_add] at e h01
    have : (2 - a) * K a x 2 ≤ 0 := mul_nonpos_of_nonpos_of_nonneg (by linarith) k2.le
    nlinarith

/-! ### The loop -/

theorem N_mono {z : ℕ} (hz : 1 ≤ z) (n : ℕ) : (N z n : ℝ) ≤ N z (n + 1) := by
  have h1 : (1 : ℝ) ≤ z := by exact_mod_cast hz
  have h := (seq_ratio (a := 0) le_rfl h1 (by simpa using h1) n).2
  have p := N_pos hz n
  rw [← N_cast, ← N_cast] at h
  have hn : (0 : ℝ) ≤ n := Nat.cast_nonneg n
  nlinarith

theorem loop {z : ℕ} {μ eps : ℝ} (hz : 1 ≤ z) (ha : 0 < a) (hx : a + z ≤ x) (hμ : 0 < μ) (hμ1 : μ * (z + 1) ≤ 1) (he : 0 ≤ eps) (he1 : eps < 1) :
    ∀ k j : ℕ, ∃ m : ℕ, cfLoop (fin eps) (fin μ) (fin a) k (fin j) (fin (b a x j)) (fin (A a x μ (j + 1) / A a x μ j)) (fin (B a x j / B a x (j + 1)))
        (fin (A a x μ (j + 1) / B a x (j + 1))) = fin (A a x μ (m + 1) / B a x (m + 1)) ∧ j ≤ m ∧ m ≤ j + k ∧
      ((j < m ∧ gap a x μ m ≤ eps / (1 - eps)) ∨ m = j + k) := by
  have hz1 : (1 : ℝ) ≤ z := by exact_mod_cast hz
  have hμ2 : μ ≤ 1 := by nlinarith
  have hx1 : a + 1 ≤ x := by linarith
  have hB : ∀ j, 0 < B a x j := fun j => (seq_ratio ha.le (by linarith) hx1 j).1
  have hBr : ∀ j : ℕ, ((j : ℝ) + 2) * B a x j ≤ B a x (j + 1) := fun j => (seq_ratio ha.le (by linarith) hx1 j).2
  have hAs := A_start hz ha.le hx hμ.le hμ1
  have hA1 : ∀ j, 0 < A a x μ (j + 1) := fun j => (seq_growth hz ha.le hx one_pos hAs j).1
  have hA : ∀ j, 0 < A a x μ j := fun j => by
    rcases j with _ | j
    · exact hμ
    · exact hA1 j
  have hAr : ∀ j, A a x μ (j + 1) ≤ A a x μ (j + 2) := fun j => by
    have h := (seq_growth hz ha.le hx one_pos hAs j).2
    change N z (j + 2) * A a x μ (j + 1) ≤ N z (j + 1) * A a x μ (j + 2) at h
    have h1 := mul_le_mul_of_nonneg_right (N_mono hz (j + 1)) (hA1 j).le
    exact le_of_mul_le_mul_left (h1.trans h) (N_pos hz (j + 1))
  intro k
  induction k with
  | zero => intro j; exact ⟨j, rfl, le_rfl, le_rfl, Or.inr rfl⟩
  | succ k ih =>
    intro j
    have hj : (0 : ℝ) ≤ j := Nat.cast_nonneg j
    have b0 := hB j
    have b1 := hB (j + 1)
    have b2 := hB (j + 2)
    have a0 := hA j
    have a1 := hA (j + 1)
    have a2 := hA (j + 2)
    have ed : -((j : ℝ) + 1) * (j + 1 - a) * (B a x j / B a x (j + 1)) + (b a x j + 2) = B a x (j + 2) / B a x (j + 1) := by
      have e : B a x (j + 2) = b a x (j + 1) * B a x (j + 1) - (j + 1) * (j + 1 - a) * B a x j := seq_two _ _ _ _ j
      rw [e]; field_simp; rw [b, b]; push_cast; ring
    have ec : b a x j + 2 + -((j : ℝ) + 1) * (j + 1 - a) / (A a x μ (j + 1) / A a x μ j) = A a x μ (j + 2) / A a x μ (j + 1) := by
      have e : A a x μ (j + 2) = b a x (j + 1) * A a x μ (j + 1) - (j + 1) * (j + 1 - a) * A a x μ j := seq_two _ _ _ _ j
      rw [e]; field_simp; rw [b, b]; push_cast; ring
    have eb : b a x j + 2 = b a x (j + 1) := by rw [b, b]; push_cast; ring
    have hd1 : 1 ≤ B a x (j + 2) / B a x (j + 1) := by
      rw [le_div_iff₀ b1]; have := hBr (j + 1); push_cast at this; nlinarith
    have hc1 : 1 ≤ A a x μ (j + 2) / A a x μ (j + 1) := by
      rw [le_div_iff₀ a1, one_mul]; exact hAr j
    rw [cfLoop]
    simp only [ofNat_fin, Nat.cast_one, Nat.cast_ofNat, fin_add, fin_sub, neg_fin, fin_mul, abs_fin, fin_lt, fin_div (div_pos a1 a0).ne', ed, ec]
    have hd2 : ¬|B a x (j + 2) / B a x (j + 1)| < μ := by rw [abs_of_pos (by linarith)]; linarith
    have hc2 : ¬|A a x μ (j + 2) / A a x μ (j + 1)| < μ := by rw [abs_of_pos (by linarith)]; linarith
    have hd3 : B a x (j + 2) / B a x (j + 1) ≠ 0 := by positivity
    simp only [if_neg hd2, if_neg hc2, fin_div hd3, fin_mul, fin_sub, abs_fin, fin_lt]
    have eh : A a x μ (j + 1) / B a x (j + 1) * (1 / (B a x (j + 2) / B a x (j + 1)) * (A a x μ (j + 2) / A a x μ (j + 1))) = A a x μ (j + 2) / B a x (j + 2) := by
      field_simp
    have ei : 1 / (B a x (j + 2) / B a x (j + 1)) = B a x (j + 1) / B a x (j + 2) := by field_simp
    rw [eh, ei, eb]
    split_ifs with h
    · obtain ⟨m, e, h1, h2, h3⟩ := ih (j + 1)
      refine ⟨m, ?_, by omega, by omega, ?_⟩
      · rw [← e]; push_cast; rfl
      · rcases h3 with h3 | h3
        · exact Or.inl ⟨by omega, h3.2⟩
        · exact Or.inr (by omega)
    · refine ⟨j + 1, rfl, by omega, by omega, Or.inl ⟨by omega, ?_⟩⟩
      have h := not_lt.1 h
      have e : B a x (j + 1) / B a x (j + 2) * (A a x μ (j + 2) / A a x μ (j + 1)) - 1 =
          (A a x μ (j + 2) * B a x (j + 1) - A a x μ (j + 1) * B a x (j + 2)) / (A a x μ (j + 1) * B a x (j + 2)) := by field_simp
      rw [e, abs_div, abs_of_pos (mul_pos a1 b2), div_le_iff₀ (mul_pos a1 b2)] at h
      rw [gap, div_le_div_iff₀ (mul_pos a2 b1) (by linarith)]
      have := neg_abs_le (A a x μ (j + 2) * B a x (j + 1) - A a x μ (j + 1) * B a x (j + 2))
      nlinarith

theorem complement (ha : 0 < a) (hx : 0 ≤ x) : Spec.lowerGamma a x + K a x 0 = Real.Gamma a := by
  rw [← gamma_eq ha, Spec.lowerGamma, K]
  have h0 : IntegrableOn (fun t : ℝ => t ^ (a - 1) * Real.exp (-t)) (Ioi 0) := base_integrable ha le_rfl
  have e : (∫ t in Ioi x, k a x 0 t) = ∫ t in Ioi x, t ^ (a - 1) * Real.exp (-t) := by
    refine integral_congr_ae (Eventually.of_forall fun t => ?_); simp [k]
  rw [e]
  exact intervalIntegral.integral_interval_add_Ioi h0 (base_integrable ha hx)

/-- What the continued fraction computes. -/
theorem cf_fin (L : Limits) {z : ℕ} (byGamma : Bool) (hz : 1 ≤ z) (ha : 0 < a) (hx : a + z ≤ x)
    (hμ : 0 < L.min) (hμ1 : 4 * L.min * (z + 1) ≤ 1) (he : 0 ≤ L.epsilon) (he1 : 4 * L.epsilon < 1) :
    ∃ m ≤ L.digits, gammaQCf L byGamma (fin a) (fin x) =
        fin (x ^ a * Real.exp (-x) * (A a x (4 * L.min) (m + 1) / B a x (m + 1)) / if byGamma then Real.Gamma a else 1) ∧
      ((0 < m ∧ gap a x (4 * L.min) m ≤ 4 * L.epsilon / (1 - 4 * L.epsilon)) ∨ m = L.digits) := by
  have hz1 : (1 : ℝ) ≤ z := by exact_mod_cast hz
  have hx1 : a + 1 ≤ x := by linarith
  have hx0 : 0 < x := by linarith
  obtain ⟨m, e, -, hm, hs⟩ := loop hz ha hx (by linarith : 0 < 4 * L.min) hμ1 (by linarith) he1 L.digits 0
  set μ := 4 * L.min
  set G : ℝ := if byGamma then Real.Gamma a else 1 with hG
  have hb0 : b a x 0 = x + 1 - a := by rw [b]; push_cast; ring
  have hb : 0 < x + 1 - a := by linarith
  have e1 : Real.exp (-x + a * Real.log x) = x ^ a * Real.exp (-x) := by
    rw [Real.exp_add, Real.rpow_def_of_pos hx0, mul_comm a, mul_comm]
  refine ⟨m, by omega, ?_, by simpa using hs⟩
  rw [gammaQCf]
  simp only [ofNat_fin, Nat.cast_ofNat, Nat.cast_one, Nat.cast_zero, fin_mul, fin_add, fin_sub, neg_fin, ln_fin hx0]
  have eB0 : B a x 0 = 1 := rfl
  have eB1 : B a x (0 + 1) = x + 1 - a := hb0
  have eA0 : A a x μ 0 = μ := rfl
  have eA1 : A a x μ (0 + 1) = 1 := rfl
  rw [eB0, eB1, eA0, eA1, hb0, Nat.cast_zero] at e
  rw [fin_div (by linarith : (4 * L.min : ℝ) ≠ 0), fin_div hb.ne']
  change (if byGamma then _ * cfLoop (fin (4 * L.epsilon)) (fin μ) (fin a) L.digits (fin 0) (fin (x + 1 - a)) (fin (1 / μ)) (fin (1 / (x + 1 - a))) (fin (1 / (x + 1 - a)))
    else _ * cfLoop (fin (4 * L.epsilon)) (fin μ) (fin a) L.digits (fin 0) (fin (x + 1 - a)) (fin (1 / μ)) (fin (1 / (x + 1 - a))) (fin (1 / (x + 1 - a)))) = _
  rw [e, hG]
  split_ifs
  · rw [lnGamma_fin ha, fin_sub, exp_fin, fin_mul, Real.exp_sub, e1, Real.exp_log (Real.Gamma_pos_of_pos ha)]
    congr 1; ring
  · rw [exp_fin, fin_mul, e1, div_one]

/-- A convergent that is too small. -/
theorem below {μ : ℝ} (ha : 0 < a) (ha1 : a < 1) (hx1 : 1 ≤ x) (hx : a + 1 ≤ x) (hμ0 : 0 ≤ μ) (hμ : μ * b a x 0 ≤ 1) (n : ℕ) :
    A a x μ (n + 1) / B a x (n + 1) ≤ A a x μ (n + 2) / B a x (n + 2) ∧ x ^ a * Real.exp (-x) * (A a x μ (n + 1) / B a x (n + 1)) ≤ K a x 0 := by
  have hx0 : 0 < x := by linarith
  have hB0 := (seq_ratio ha.le hx1 hx n).1
  have hB1 := (seq_ratio ha.le hx1 hx (n + 1)).1
  have hB2 := (seq_ratio ha.le hx1 hx (n + 2)).1
  change 0 < B a x n at hB0
  change 0 < B a x (n + 1) at hB1
  change 0 < B a x (n + 2) at hB2
  have hdet : ∀ m, 0 ≤ A a x μ (m + 1) * B a x m - A a x μ m * B a x (m + 1) := fun m => by
    rw [A, B, seq_det]
    refine mul_nonneg (by linarith) (Finset.prod_nonneg fun i _ => mul_nonneg (by positivity) ?_)
    have : (0 : ℝ) ≤ i := Nat.cast_nonneg i
    linarith
  constructor
  · rw [div_le_div_iff₀ hB1 hB2]
    have := hdet (n + 1)
    linarith
  · have eA := seq_K ha hx0 μ 1 n
    have eB := seq_K ha hx0 1 (b a x 0) n
    have hW := K_rec_zero ha hx0
    rw [mul_one, hW] at eB
    rw [one_mul] at eA
    have k0 := K_pos ha hx0 n
    have k1 := K_pos ha hx0 (n + 1)
    have k2 := K_pos ha hx0 1
    have hF : (0 : ℝ) < n.factorial := by exact_mod_cast Nat.factorial_pos _
    have h := hdet n
    change A a x μ (n + 1) * K a x n - (n + 1 - a) * A a x μ n * K a x (n + 1) = _ at eA
    change B a x (n + 1) * K a x n - (n + 1 - a) * B a x n * K a x (n + 1) = _ at eB
    have hn : (0 : ℝ) ≤ n := Nat.cast_nonneg n
    have h3 : 0 ≤ (n + 1 - a) * K a x (n + 1) * (A a x μ (n + 1) * B a x n - A a x μ n * B a x (n + 1)) :=
      mul_nonneg (mul_nonneg (by linarith) k1.le) h
    have h4 : n.factorial * (A a x μ (n + 1) * (x ^ a * Real.exp (-x))) ≤ n.factorial * (B a x (n + 1) * (K a x 0 - (1 - a) * μ * K a x 1)) := by
      linear_combination B a x (n + 1) * eA - A a x μ (n + 1) * eB + h3
    have h5 := le_of_mul_le_mul_left h4 hF
    have h6 : 0 ≤ (1 - a) * μ * K a x 1 := mul_nonneg (mul_nonneg (by linarith) hμ0) k2.le
    rw [← mul_div_assoc, div_le_iff₀ hB1]
    nlinarith

/-- The accuracy of the continued fraction. -/
theorem cf_accuracy (L : Limits) {z : ℕ} {g κ : ℝ} (byGamma : Bool) (hz : 1 ≤ z) (ha : 0 < a) (hx : a + z ≤ x) (hreg : a ≤ L.digits + 1 ∨ 235 / 100 * a ≤ x)
    (hd : 0 < L.digits) (hμ : 0 < L.min) (hμ1 : 4 * L.min * (z + 1) ≤ 1) (he : 0 ≤ L.epsilon) (he1 : 4 * L.epsilon < 1)
    (h1 : (L.digits + 1) * (4 * L.epsilon / (1 - 4 * L.epsilon)) ≤ g)
    (h2 : (L.digits + 1) * ((L.digits.factorial : ℝ) ^ 2 * (z + 1) / (N z (L.digits + 1) * N z L.digits)) ≤ g)
    (h3 : (L.digits + 1) * (10 / 27 : ℝ) ^ L.digits ≤ g) (hg : g < 1) (hκ : g + 4 * L.min * (L.digits + 1) ≤ κ * (1 - g)) :
    ∃ y : ℝ, gammaQCf L byGamma (fin a) (fin x) = fin y ∧ 0 ≤ y ∧
      |y - K a x 0 / if byGamma then Real.Gamma a else 1| ≤ κ * (K a x 0 / if byGamma then Real.Gamma a else 1) := by
  have hz1 : (1 : ℝ) ≤ z := by exact_mod_cast hz
  have hx1 : a + 1 ≤ x := by linarith
  have hx0 : 0 < x := by linarith
  obtain ⟨m, hm, ey, hs⟩ := cf_fin L byGamma hz ha hx hμ hμ1 he he1
  set μ := 4 * L.min
  have hAs := A_start hz ha.le hx (by linarith : 0 ≤ μ) hμ1
  have hA := (seq_growth hz ha.le hx one_pos hAs m).1
  have hB := (seq_ratio ha.le (by linarith) hx1 (m + 1)).1
  change 0 < A a x μ (m + 1) at hA
  change 0 < B a x (m + 1) at hB
  have hW0 : 0 < x ^ a * Real.exp (-x) := mul_pos (Real.rpow_pos_of_pos hx0 _) (Real.exp_pos _)
  set G : ℝ := if byGamma then Real.Gamma a else 1 with hG
  have hG0 : 0 < G := by
    rw [hG]; split_ifs
    · exact Real.Gamma_pos_of_pos ha
    · exact one_pos
  refine ⟨_, ey, by positivity, ?_⟩
  have hm1 : (m : ℝ) + 1 ≤ L.digits + 1 := by
    have : (m : ℝ) ≤ L.digits := by exact_mod_cast (by omega : m ≤ L.digits)
    linarith
  have hgap0 : 0 ≤ gap a x μ m := div_nonneg (abs_nonneg _) (mul_nonneg hA.le (seq_ratio ha.le (by linarith) hx1 m).1.le)
  have hgm : (m + 1) * gap a x μ m ≤ g := by
    refine (mul_le_mul_of_nonneg_right hm1 hgap0).trans ?_
    have hdp : (0 : ℝ) ≤ L.digits + 1 := by positivity
    rcases hs with ⟨-, hs⟩ | hs
    · exact (mul_le_mul_of_nonneg_left hs hdp).trans h1
    · rcases le_or_gt a (L.digits + 1) with hr | hr
      · refine (mul_le_mul_of_nonneg_left ?_ hdp).trans h2
        rw [hs]
        exact gap_le hz ha.le hx (by linarith : 0 ≤ μ) hμ1 hd hr
      · refine (mul_le_mul_of_nonneg_left ?_ hdp).trans h3
        rw [hs]
        obtain ⟨n, hn⟩ : ∃ n, L.digits = n + 1 := ⟨L.digits - 1, by omega⟩
        rw [hn] at hr ⊢
        push_cast at hr
        have hn0 : (0 : ℝ) ≤ n := Nat.cast_nonneg n
        refine gap_le_large (by linarith) ?_ (by linarith : 0 ≤ μ) (by nlinarith) n (by linarith)
        rcases hreg with h | h
        · rw [hn] at h; push_cast at h; linarith
        · exact h
  have ht := tail (μ := μ) ha (by linarith) hx1 m hA
  have hf : |1 - a| * K a x 1 ≤ (L.digits + 1) * K a x 0 := by
    refine first_err ha hx1 ?_
    rcases le_or_gt a (L.digits + 1) with hr | hr
    · exact Or.inl hr
    · refine Or.inr ⟨?_, hreg.resolve_left (not_le.2 hr)⟩
      have : (1 : ℝ) ≤ L.digits := by exact_mod_cast hd
      linarith
  have k0 := K_pos ha hx0 0
  set W := x ^ a * Real.exp (-x)
  set h := A a x μ (m + 1) / B a x (m + 1)
  have hh : 0 < h := div_pos hA hB
  have hμ0 : 0 < μ := by linarith
  set Q := K a x 0
  -- all scaled by `W`
  have ht2 : |W * h - (Q - (1 - a) * μ * K a x 1)| ≤ g * (W * h) := by
    have e2 : W * h - (Q - (1 - a) * μ * K a x 1) = W * (h - (Q - (1 - a) * μ * K a x 1) / W) := by field_simp
    rw [e2, abs_mul, abs_of_pos hW0]
    calc W * |h - (Q - (1 - a) * μ * K a x 1) / W| ≤ W * ((m + 1) * (gap a x μ m * h)) := mul_le_mul_of_nonneg_left ht hW0.le
      _ = ((m + 1) * gap a x μ m) * (W * h) := by ring
      _ ≤ _ := mul_le_mul_of_nonneg_right hgm (by positivity)
  have hf2 : |(1 - a) * μ * K a x 1| ≤ μ * (L.digits + 1) * Q := by
    rw [abs_mul, abs_mul, abs_of_pos hμ0, abs_of_pos (K_pos ha hx0 1)]
    nlinarith
  have h5 : |W * h - Q| ≤ g * (W * h) + μ * (L.digits + 1) * Q := by
    have : W * h - Q = (W * h - (Q - (1 - a) * μ * K a x 1)) + -((1 - a) * μ * K a x 1) := by ring
    rw [this]
    refine (abs_add_le _ _).trans ?_
    rw [abs_neg]; linarith
  have hg0 : 0 ≤ g := le_trans (mul_nonneg (by positivity) hgap0) hgm
  have h6 : |W * h - Q| ≤ κ * Q := by
    have h7 : W * h ≤ Q + |W * h - Q| := by have := le_abs_self (W * h - Q); linarith
    have h8 : (1 - g) * |W * h - Q| ≤ (1 - g) * (κ * Q) := by
      have := mul_le_mul_of_nonneg_left h7 hg0
      have := mul_le_mul_of_nonneg_right hκ k0.le
      nlinarith
    exact le_of_mul_le_mul_left h8 (by linarith)
  have h9 := div_le_div_of_nonneg_right h6 hG0.le
  rw [mul_div_assoc κ Q G] at h9
  rw [← sub_div, abs_div, abs_of_pos hG0]
  exact h9

end Trng.GammaFraction
