import Verif.Proofs.GammaCf

/-! The conditions of the accuracy theorems for the three formats, and the cases in which the loops end too early. -/
namespace Trng.GammaFormats
open Set MeasureTheory XR Special BetaSeries GammaSeries GammaFraction

theorem half_pow_le {n m : ℕ} (h : m ≤ n) : (2⁻¹ : ℝ) ^ n ≤ 2⁻¹ ^ m := pow_le_pow_of_le_one (by norm_num) (by norm_num) h

/-- What the series needs. -/
structure SerOk (L : Limits) : Prop where
  eps : 0 ≤ L.epsilon
  digits : 0 < L.digits
  prod : ∏ i ∈ Finset.range L.digits, ((L.digits10 + 1 : ℝ) / (L.digits10 + (i + 1))) ≤ 4 * L.epsilon
  geo : (3 / 10 : ℝ) ^ L.digits ≤ 4 * L.epsilon
  one : 1 ≤ L.digits10
  sub : L.digits10 ≤ L.digits

theorem ser_ok {L : Limits} (hL : L = .float ∨ L = .double ∨ L = .longDouble) : SerOk L := by
  rcases hL with rfl | rfl | rfl
  · refine ⟨?_, ?_, ?_, ?_, ?_, ?_⟩ <;> norm_num [Limits.float, Finset.prod_range_succ]
  · refine ⟨?_, ?_, ?_, ?_, ?_, ?_⟩ <;> norm_num [Limits.double, Finset.prod_range_succ]
  · refine ⟨?_, ?_, ?_, ?_, ?_, ?_⟩ <;> norm_num [Limits.longDouble, Finset.prod_range_succ]

/-- What the continued fraction needs. -/
structure CfOk (L : Limits) (z : ℕ) (κ : ℝ) : Prop where
  min : 0 < L.min
  min1 : 4 * L.min * (z + 1) ≤ 1
  eps : 0 ≤ L.epsilon
  eps1 : 4 * L.epsilon < 1
  ex : ∃ g : ℝ, (L.digits + 1) * (4 * L.epsilon / (1 - 4 * L.epsilon)) ≤ g ∧
    (L.digits + 1) * ((L.digits.factorial : ℝ) ^ 2 * (z + 1) / (N z (L.digits + 1) * N z L.digits)) ≤ g ∧
    (L.digits + 1) * (10 / 27 : ℝ) ^ L.digits ≤ g ∧ g < 1 ∧ g + 4 * L.min * (L.digits + 1) ≤ κ * (1 - g)

theorem gap_check {z d : ℕ} {g : ℝ} {p q : ℕ} (hz : 1 ≤ z) (hg : (p : ℝ) / q = g) (hq : 0 < q)
    (h : (d + 1) * ((d.factorial : ℤ) ^ 2 * (z + 1)) * q ≤ p * (N z (d + 1) * N z d)) :
    (d + 1) * ((d.factorial : ℝ) ^ 2 * (z + 1) / (N z (d + 1) * N z d)) ≤ g := by
  have p1 := N_pos hz (d + 1)
  have p2 := N_pos hz d
  rw [← hg, ← mul_div_assoc, div_le_div_iff₀ (by positivity) (by exact_mod_cast hq)]
  exact_mod_cast h

theorem float_cf1 : CfOk .float 1 (7 * Limits.float.epsilon * (Limits.float.digits + 1)) := by
  have e : Limits.float.min ≤ 2⁻¹ ^ 100 := half_pow_le (by norm_num)
  have e0 : 0 < Limits.float.min := by simp [Limits.float]
  refine ⟨e0, ?_, by norm_num [Limits.float], by norm_num [Limits.float], 6 * 2⁻¹ ^ 23 * 25, ?_, ?_, ?_, ?_, ?_⟩
  · norm_num at e ⊢; linarith
  · norm_num [Limits.float]
  · exact gap_check (d := 24) (p := 6 * 25) (q := 2 ^ 23) le_rfl (by norm_num) (by norm_num) (by decide +kernel)
  · norm_num [Limits.float]
  · norm_num
  · have e1 : ((Limits.float.digits : ℕ) : ℝ) = 24 := by norm_num [Limits.float]
    have e2 : Limits.float.epsilon = 2⁻¹ ^ 23 := rfl
    rw [e1, e2]; norm_num at e ⊢; linarith

theorem float_cf2 : CfOk .float 2 (7 * Limits.float.epsilon * (Limits.float.digits + 1)) := by
  have e : Limits.float.min ≤ 2⁻¹ ^ 100 := half_pow_le (by norm_num)
  have e0 : 0 < Limits.float.min := by simp [Limits.float]
  refine ⟨e0, ?_, by norm_num [Limits.float], by norm_num [Limits.float], 6 * 2⁻¹ ^ 23 * 25, ?_, ?_, ?_, ?_, ?_⟩
  · norm_num at e ⊢; linarith
  · norm_num [Limits.float]
  · exact gap_check (d := 24) (p := 6 * 25) (q := 2 ^ 23) (by norm_num) (by norm_num) (by norm_num) (by decide +kernel)
  · norm_num [Limits.float]
  · norm_num
  · have e1 : ((Limits.float.digits : ℕ) : ℝ) = 24 := by norm_num [Limits.float]
    have e2 : Limits.float.epsilon = 2⁻¹ ^ 23 := rfl
    rw [e1, e2]; norm_num at e ⊢; linarith

theorem double_min : Limits.double.min ≤ 2⁻¹ ^ 100 := half_pow_le (by norm_num)
theorem double_min0 : 0 < Limits.double.min := by simp [Limits.double]
theorem double_digits : ((Limits.double.digits : ℕ) : ℝ) = 53 := by norm_num [Limits.double]
theorem double_eps : Limits.double.epsilon = 2⁻¹ ^ 52 := rfl

theorem double_cf1 : CfOk .double 1 (1 / 10 ^ 10) := by
  have e := double_min
  refine ⟨double_min0, ?_, by norm_num [Limits.double], by norm_num [Limits.double], 9 / 10 ^ 11, ?_, ?_, ?_, ?_, ?_⟩
  · norm_num at e ⊢; linarith
  · rw [double_digits, double_eps]; norm_num
  · exact gap_check (d := 53) (p := 9) (q := 10 ^ 11) le_rfl (by norm_num) (by norm_num) (by decide +kernel)
  · rw [double_digits]; norm_num [Limits.double]
  · norm_num
  · rw [double_digits]; norm_num at e ⊢; linarith

theorem double_cf2 : CfOk .double 2 (7 * Limits.double.epsilon * (Limits.double.digits + 1)) := by
  have e := double_min
  refine ⟨double_min0, ?_, by norm_num [Limits.double], by norm_num [Limits.double], 6 * 2⁻¹ ^ 52 * 54, ?_, ?_, ?_, ?_, ?_⟩
  · norm_num at e ⊢; linarith
  · rw [double_digits, double_eps]; norm_num
  · exact gap_check (d := 53) (p := 6 * 54) (q := 2 ^ 52) (by norm_num) (by norm_num) (by norm_num) (by decide +kernel)
  · rw [double_digits]; norm_num [Limits.double]
  · norm_num
  · rw [double_digits, double_eps]; norm_num at e ⊢; linarith

theorem long_min : Limits.longDouble.min ≤ 2⁻¹ ^ 200 := half_pow_le (by norm_num)
theorem long_min0 : 0 < Limits.longDouble.min := by
  have : (0 : ℝ) < 2⁻¹ ^ 16382 := pow_pos (by norm_num) _
  exact this
theorem long_digits : ((Limits.longDouble.digits : ℕ) : ℝ) = 64 := by
  have : Limits.longDouble.digits = 64 := rfl
  rw [this]; norm_num
theorem long_eps : Limits.longDouble.epsilon = 2⁻¹ ^ 63 := rfl

theorem long_cf1 : CfOk .longDouble 1 (1 / 10 ^ 11) := by
  have e := long_min
  refine ⟨long_min0, ?_, by rw [long_eps]; norm_num, by rw [long_eps]; norm_num, 6 / 10 ^ 12, ?_, ?_, ?_, ?_, ?_⟩
  · norm_num at e ⊢; linarith
  · rw [long_digits, long_eps]; norm_num
  · exact gap_check (d := 64) (p := 6) (q := 10 ^ 12) le_rfl (by norm_num) (by norm_num) (by decide +kernel)
  · rw [long_digits, show Limits.longDouble.digits = 64 from rfl]; norm_num
  · norm_num
  · rw [long_digits]; norm_num at e ⊢; linarith

theorem long_cf2 : CfOk .longDouble 2 (7 * Limits.longDouble.epsilon * (Limits.longDouble.digits + 1)) := by
  have e := long_min
  refine ⟨long_min0, ?_, by rw [long_eps]; norm_num, by rw [long_eps]; norm_num, 34 / 5 * 2⁻¹ ^ 63 * 65, ?_, ?_, ?_, ?_, ?_⟩
  · norm_num at e ⊢; linarith
  · rw [long_digits, long_eps]; norm_num
  · exact gap_check (d := 64) (p := 34 * 13) (q := 2 ^ 63) (by norm_num) (by norm_num) (by norm_num) (by decide +kernel)
  · rw [long_digits, show Limits.longDouble.digits = 64 from rfl]; norm_num
  · norm_num
  · rw [long_digits, long_eps]; norm_num at e ⊢; linarith

theorem cf2_ok {L : Limits} (hL : L = .float ∨ L = .double ∨ L = .longDouble) : CfOk L 2 (7 * L.epsilon * (L.digits + 1)) := by
  rcases hL with rfl | rfl | rfl
  exacts [float_cf2, double_cf2, long_cf2]

/-! ### Too few terms -/

/-- `S` in rational numbers, as a numerator over `1 / a`. -/
def cQ (a x : ℚ) : ℕ → ℚ
  | 0 => 1 / a
  | k + 1 => cQ a x k * (x / (a + (k + 1)))

def SQ (a x : ℚ) : ℕ → ℚ
  | 0 => 1 / a
  | k + 1 => SQ a x k + cQ a x (k + 1)

theorem cQ_cast (a x : ℚ) (n : ℕ) : ((cQ a x n : ℚ) : ℝ) = c a x n := by
  induction n with
  | zero => simp [cQ, c]
  | succ n ih => rw [cQ, c, ← ih]; push_cast; rfl

theorem SQ_cast (a x : ℚ) (n : ℕ) : ((SQ a x n : ℚ) : ℝ) = S a x n := by
  induction n with
  | zero => simp [SQ, S, c]
  | succ n ih => rw [SQ, S_succ, ← ih, ← cQ_cast]; push_cast; rfl

theorem S_mono {a x : ℝ} (ha : 0 < a) (hx : 0 ≤ x) {m n : ℕ} (h : m ≤ n) : S a x m ≤ S a x n := by
  induction h with
  | refl => exact le_rfl
  | step _ ih => rw [Nat.succ_eq_add_one, S_succ]; have := c_nonneg ha hx (Nat.succ ‹_›); linarith

theorem few_terms : SQ 150 150 53 < (1 - 1 / 10 ^ 6) * SQ 150 150 70 := by decide +kernel

theorem series_short : ∃ y : ℝ, gammaPSer .double false (fin 150) (fin 150) = fin y ∧ y < (1 - 1 / 10 ^ 6) * Spec.lowerGamma 150 150 := by
  obtain ⟨m, e, hm, -⟩ := ser_fin .double false (a := 150) (x := 150) (by norm_num) (by norm_num) (by rw [double_eps]; norm_num)
  refine ⟨_, e, ?_⟩
  rw [series (a := 150) (x := 150) (by norm_num) (by norm_num) 70]
  have hr := rest_nonneg (a := 150) (x := 150) (by norm_num) (by norm_num) 70
  have hS := S_mono (a := 150) (x := 150) (by norm_num) (by norm_num) (show m ≤ 53 from hm)
  have hf : (S 150 150 53 : ℝ) < (1 - 1 / 10 ^ 6) * S 150 150 70 := by
    have h : ((SQ 150 150 53 : ℚ) : ℝ) < (((1 - 1 / 10 ^ 6) * SQ 150 150 70 : ℚ) : ℝ) := by exact_mod_cast few_terms
    rw [Rat.cast_mul, SQ_cast, SQ_cast] at h
    push_cast at h
    exact h
  have hw : (0 : ℝ) < 150 ^ (150 : ℝ) * Real.exp (-150) := mul_pos (Real.rpow_pos_of_pos (by norm_num) _) (Real.exp_pos _)
  generalize (150 : ℝ) ^ (150 : ℝ) * Real.exp (-150) = W at *
  simp only [Bool.false_eq_true, if_false, div_one]
  have := mul_le_mul_of_nonneg_left hS hw.le
  have := mul_lt_mul_of_pos_left hf hw
  have h6 : (0 : ℝ) < 1 - 1 / 10 ^ 6 := by norm_num
  have := mul_nonneg h6.le hr
  linarith

/-- The denominators in rational numbers. -/
def BQ (a x : ℚ) : ℕ → ℚ
  | 0 => 1
  | 1 => x + 1 - a
  | n + 2 => (x + (2 * (n + 1) + 1) - a) * BQ a x (n + 1) - (n + 1) * (n + 1 - a) * BQ a x n

theorem BQ_cast (a x : ℚ) (n : ℕ) : ((BQ a x n : ℚ) : ℝ) = B a x n := by
  induction n using Nat.strong_induction_on with
  | _ n ih =>
    rcases n with _ | _ | n
    · simp [BQ, B, GammaFraction.seq]
    · simp [BQ, B, GammaFraction.seq, b]
    · rw [BQ, B, seq_two, ← B, ← ih n (by omega), ← ih (n + 1) (by omega), b]; push_cast; ring

def detQ (a : ℚ) : ℕ → ℚ
  | 0 => 1
  | n + 1 => detQ a n * ((n + 1) * (n + 1 - a))

theorem detQ_cast (a : ℚ) (n : ℕ) : ((detQ a n : ℚ) : ℝ) = ∏ i ∈ Finset.range n, (((i : ℝ) + 1) * (i + 1 - a)) := by
  induction n with
  | zero => simp [detQ]
  | succ n ih => rw [detQ, Finset.prod_range_succ, ← ih]; push_cast; rfl

theorem few_fractions : (2 : ℚ) / 10 ^ 13 * (BQ (1 / 2 ^ 20) (1 + 1 / 2 ^ 20) 55 * BQ (1 / 2 ^ 20) (1 + 1 / 2 ^ 20) 54) < detQ (1 / 2 ^ 20) 54 := by
  decide +kernel

theorem fraction_short : ∃ y : ℝ, gammaQCf .double true (fin (1 / 2 ^ 20)) (fin (1 + 1 / 2 ^ 20)) = fin y ∧
    y < (1 - 1 / 10 ^ 13) * (K (1 / 2 ^ 20) (1 + 1 / 2 ^ 20) 0 / Real.Gamma (1 / 2 ^ 20)) := by
  have e := double_min
  obtain ⟨m, hm, ey, -⟩ := cf_fin .double (a := 1 / 2 ^ 20) (x := 1 + 1 / 2 ^ 20) (z := 1) true le_rfl (by norm_num) (by norm_num) double_min0
    (by norm_num at e ⊢; linarith) (by rw [double_eps]; norm_num) (by rw [double_eps]; norm_num)
  refine ⟨_, ey, ?_⟩
  have hf := few_fractions
  obtain ⟨a, ha⟩ : ∃ a : ℝ, a = 1 / 2 ^ 20 := ⟨_, rfl⟩
  obtain ⟨x, hx⟩ : ∃ x : ℝ, x = 1 + 1 / 2 ^ 20 := ⟨_, rfl⟩
  rw [← hx, ← ha]
  have hf' : ((2 / 10 ^ 13 * (BQ (1 / 2 ^ 20) (1 + 1 / 2 ^ 20) 55 * BQ (1 / 2 ^ 20) (1 + 1 / 2 ^ 20) 54) : ℚ) : ℝ) < (detQ (1 / 2 ^ 20) 54 : ℚ) := by
    exact_mod_cast hf
  rw [Rat.cast_mul, Rat.cast_mul, BQ_cast, BQ_cast, detQ_cast] at hf'
  push_cast at hf'
  rw [← hx, ← ha] at hf'
  have ha0 : 0 < a := by rw [ha]; norm_num
  have ha1 : a < 1 := by rw [ha]; norm_num
  have hxa : x = a + 1 := by rw [ha, hx]; ring
  have hx1 : 1 ≤ x := by linarith
  set μ := 4 * Limits.double.min
  have hμ0 : 0 ≤ μ := mul_nonneg (by norm_num) double_min0.le
  have hμ1 : μ ≤ 1 / 4 := by norm_num at e ⊢; linarith
  have hb0 : b a x 0 = 2 := by rw [b, hxa]; push_cast; ring
  have hbel := below (μ := μ) ha0 ha1 hx1 hxa.ge hμ0 (by rw [hb0]; linarith)
  have hmono : A a x μ (m + 1) / B a x (m + 1) ≤ A a x μ (53 + 1) / B a x (53 + 1) := by
    have hm : m ≤ 53 := hm
    exact monotone_nat_of_le_succ (f := fun n => A a x μ (n + 1) / B a x (n + 1)) (fun n => (hbel n).1) hm
  have h54 := (hbel 54).2
  have hx0 : 0 < x := by linarith
  have hW : 0 < x ^ a * Real.exp (-x) := mul_pos (Real.rpow_pos_of_pos hx0 _) (Real.exp_pos _)
  have hK : K a x 0 ≤ x ^ a * Real.exp (-x) := by
    rw [← K_rec_zero ha0 hx0, hb0]
    have := K_succ_le ha0 hx0 0
    have := K_pos ha0 hx0 1
    have := K_pos ha0 hx0 0
    nlinarith
  have hB1 : 0 < B a x 54 := (seq_ratio ha0.le hx1 hxa.ge 54).1
  have hB2 : 0 < B a x 55 := (seq_ratio ha0.le hx1 hxa.ge 55).1
  have hstep : 1 / 10 ^ 13 < A a x μ (54 + 1) / B a x (54 + 1) - A a x μ (53 + 1) / B a x (53 + 1) := by
    have ed := seq_det a x μ 1 1 (b a x 0) 54
    rw [hb0] at ed
    have eB : GammaFraction.seq a x 1 2 = B a x := by rw [B, hb0]
    rw [eB] at ed
    have e2 : A a x μ (54 + 1) / B a x (54 + 1) - A a x μ (53 + 1) / B a x (53 + 1) =
        (A a x μ 55 * B a x 54 - A a x μ 54 * B a x 55) / (B a x 55 * B a x 54) := by
      rw [div_sub_div _ _ hB2.ne' hB1.ne']; ring
    rw [e2, lt_div_iff₀ (by positivity)]
    change A a x μ 55 * B a x 54 - A a x μ 54 * B a x 55 = _ at ed
    rw [ed]
    have hp : 0 < B a x 55 * B a x 54 := by positivity
    nlinarith
  have hG := Real.Gamma_pos_of_pos ha0
  simp only [if_true]
  rw [← mul_div_assoc (1 - 1 / 10 ^ 13 : ℝ)]
  refine div_lt_div_of_pos_right ?_ hG
  have h1 := mul_le_mul_of_nonneg_left hmono hW.le
  have h2 := mul_lt_mul_of_pos_left hstep hW
  nlinarith

end Trng.GammaFormats
