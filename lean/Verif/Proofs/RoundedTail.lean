import Verif.Proofs.RoundedHorner

/-! The approximation of inv_Phi in the outer regions, in the arithmetic of `double`. -/
namespace Trng.Inverse
open XR Machine Spec Rounded Acklam PolyBound
open Classical

variable {M : Machine} {d : ℝ}

theorem AT_eq (q : ℝ) : AT q = -(tailNE q / tailDE q) := by
  have e1 : pev dP q = 10 ^ 18 * tailDE q := by simp only [pev, dP, tailDE]; push_cast; ring
  have e2 : pev cP q = -(10 ^ 18 * tailNE q) := by simp only [pev, cP, tailNE]; push_cast; ring
  rw [AT, e1, e2, neg_div, mul_div_mul_left _ _ (by positivity)]

theorem tailDA_eq (q : ℝ) : tailDA q = tailDE q := rfl
theorem tailDE_ge {q : ℝ} (h : 0 ≤ q) : 1 ≤ tailDE q := by
  unfold tailDE
  have : 0 ≤ (((7.784695709041462e-03 * q + 3.224671290700398e-01) * q + 2.445134137142996e+00) * q + 3.754408661907416e+00) * q := by positivity
  linarith
theorem tailNA_le {q : ℝ} (h : 2.7 ≤ q) : tailNA q ≤ 1.01 * (q + 1) * tailDE q := by
  obtain ⟨s, hs, rfl⟩ : ∃ s : ℝ, 0 ≤ s ∧ q = 2.7 + s := ⟨q - 2.7, by linarith, by ring⟩
  rw [← sub_nonneg]
  unfold tailNA tailDE
  ring_nf
  positivity
theorem tailNE_abs {q : ℝ} (h : 0 ≤ q) : |tailNE q| ≤ tailNA q := by
  have : 0 ≤ q ^ 2 := by positivity
  have : 0 ≤ q ^ 3 := by positivity
  have : 0 ≤ q ^ 4 := by positivity
  have : 0 ≤ q ^ 5 := by positivity
  rw [abs_le]; unfold tailNE tailNA
  constructor <;> ring_nf <;> linarith

/-- The quotient; `σ` is the sign of the region. -/
theorem tail_div (D : DoubleWithin M d) {q n e σ : ℝ} (hσ : |σ| = 1) (h0 : 2.7 ≤ q) (h1 : q ≤ 39) (hn : |n - σ * tailNE q| ≤ 17 * 1.2e-16 * tailNA q)
    (he : |e - tailDE q| ≤ 14 * 1.2e-16 * tailDA q) : ∃ y : ℝ, M.div (fin n) (fin e) = fin y ∧ |y + σ * AT q| ≤ 2e-13 := by
  have hq : 0 ≤ q := by linarith
  rw [tailDA_eq] at he
  have hN := tailNE_abs hq
  have hNA := tailNA_le h0
  have hD := tailDE_ge hq
  rw [AT_eq]
  generalize tailNE q = N at *
  generalize tailDE q = E at *
  generalize tailNA q = A at *
  have hA : A ≤ 40.4 * E := by
    refine hNA.trans (mul_le_mul_of_nonneg_right ?_ (by linarith)); linarith
  have hA0 : 0 ≤ A := (abs_nonneg N).trans hN
  have hE0 : 0 < E := by linarith
  obtain ⟨he1, he2⟩ := abs_le.1 he
  have hepos : 0.999 * E ≤ e := by linarith
  have he0 : 0 < e := by linarith
  have hσN : |σ * N| ≤ A := by rw [abs_mul, hσ, one_mul]; exact hN
  have key : |n / e - σ * N / E| ≤ 32 * 1.2e-16 * 40.4 := by
    rw [div_sub_div _ _ he0.ne' hE0.ne', abs_div, abs_of_pos (mul_pos he0 hE0), div_le_iff₀ (mul_pos he0 hE0)]
    have t : |n * E - e * (σ * N)| ≤ 17 * 1.2e-16 * A * E + A * (14 * 1.2e-16 * E) := by
      rw [show n * E - e * (σ * N) = (n - σ * N) * E - σ * N * (e - E) by ring]
      refine (abs_sub _ _).trans ?_
      rw [abs_mul, abs_mul, abs_of_pos hE0]
      exact add_le_add (mul_le_mul_of_nonneg_right hn hE0.le) (mul_le_mul hσN he (abs_nonneg _) hA0)
    refine t.trans ?_
    have t2 : A * E ≤ 40.4 * E * E := mul_le_mul_of_nonneg_right hA hE0.le
    have t3 : 0.999 * E * E ≤ e * E := mul_le_mul_of_nonneg_right hepos hE0.le
    have t4 : 0 ≤ E * E := by positivity
    calc 17 * 1.2e-16 * A * E + A * (14 * 1.2e-16 * E) = 31 * 1.2e-16 * (A * E) := by ring
      _ ≤ 31 * 1.2e-16 * (40.4 * E * E) := by gcongr
      _ ≤ 32 * 1.2e-16 * 40.4 * (0.999 * E * E) := by linarith
      _ ≤ _ := by gcongr
  have hb : |σ * N / E| ≤ 40.4 := by
    rw [abs_div, abs_of_pos hE0, div_le_iff₀ hE0]; linarith
  have hb2 : |n / e| ≤ 41 := by
    have := abs_add_le (n / e - σ * N / E) (σ * N / E)
    rw [sub_add_cancel] at this; linarith
  obtain ⟨y, ey, hy⟩ := div_err D he0.ne' (hb2.trans (by norm_num))
  refine ⟨y, ey, ?_⟩
  have t := abs_add_le (y - n / e) (n / e - σ * N / E)
  rw [show y - n / e + (n / e - σ * N / E) = y + σ * -(N / E) by ring] at t
  have := tiny_le
  linarith

/-! ### The argument -/

theorem exp_q1 : Real.exp 3.71854 ≤ 1 / 0.02425 := by
  have h1 := Real.exp_one_lt_d9
  have h2 := Real.exp_bound' (x := 0.71854) (by norm_num) (by norm_num) (n := 7) (by norm_num)
  have h3 : Real.exp 0.71854 ≤ 2.0525 := by
    refine h2.trans ?_
    norm_num [Finset.sum_range_succ, Nat.factorial]
  have e : (3.71854 : ℝ) = 1 + 1 + 1 + 0.71854 := by norm_num
  rw [e, Real.exp_add, Real.exp_add, Real.exp_add]
  have h0 := Real.exp_pos 1
  calc Real.exp 1 * Real.exp 1 * Real.exp 1 * Real.exp 0.71854 ≤ 2.7182818286 * 2.7182818286 * 2.7182818286 * 2.0525 := by gcongr
    _ ≤ 1 / 0.02425 := by norm_num

theorem log_hi {t : ℝ} (h0 : 0 < t) (h1 : t ≤ 0.02425) : Real.log t ≤ -3.71854 := by
  rw [Real.log_le_iff_le_exp h0, Real.exp_neg]
  have := Real.exp_pos 3.71854
  calc t ≤ 0.02425 := h1
    _ = (1 / 0.02425)⁻¹ := by norm_num
    _ ≤ (Real.exp 3.71854)⁻¹ := inv_anti₀ this exp_q1

theorem log_lo {t : ℝ} (h0 : (2 : ℝ)⁻¹ ^ 1074 ≤ t) : -744.5 ≤ Real.log t := by
  have hl : Real.log ((2 : ℝ)⁻¹ ^ 1074) ≤ Real.log t := Real.log_le_log (by positivity) h0
  rw [Real.log_pow, Real.log_inv] at hl
  have := Real.log_two_lt_d9
  norm_num at hl ⊢
  linarith

theorem argument (D : DoubleWithin M d) (hd : d ≤ 9e-16) {t L : ℝ} (h0 : (2 : ℝ)⁻¹ ^ 1074 ≤ t) (h1 : t ≤ 0.02425)
    (hL : |L - Real.log t| ≤ d * |Real.log t| + tiny) :
    ∃ q : ℝ, M.sqrt (M.mul (fin (-2)) (fin L)) = fin q ∧ 2.727 ≤ q ∧ q ≤ 38.6 ∧ |Real.exp (-q ^ 2 / 2) - t| ≤ 3e-12 * t := by
  have ht : 0 < t := lt_of_lt_of_le (by positivity) h0
  have l1 := log_hi ht h1
  have l0 := log_lo h0
  have ht1 := tiny_le
  have hL' : |L - Real.log t| ≤ 9e-16 * 744.5 + tiny := by
    refine hL.trans (add_le_add_left ?_ _)
    rw [abs_of_nonpos (by linarith)]
    exact mul_le_mul hd (by linarith) (by linarith) (by norm_num)
  obtain ⟨L1, L2⟩ := abs_le.1 hL'
  have hLL : |-2 * L| ≤ 1490 := abs_le.2 ⟨by linarith, by linarith⟩
  obtain ⟨m, em, hm⟩ := mul_err D (a := -2) (b := L) (hLL.trans (by norm_num))
  have hm' : |m - -2 * L| ≤ 1.2e-16 * 1490 + tiny := hm.trans (by linarith)
  obtain ⟨m1, m2⟩ := abs_le.1 hm'
  have hmQ : |m - -2 * Real.log t| ≤ 1.6e-12 := abs_le.2 ⟨by linarith, by linarith⟩
  obtain ⟨q1, q2⟩ := abs_le.1 hmQ
  have hm0 : 7.437 ≤ m := by linarith
  have hm1 : m ≤ 1489.1 := by linarith
  obtain ⟨q, eq, hq⟩ := D.sqrt m (by linarith) (by linarith)
  set s := Real.sqrt m with hs
  have hss : s ^ 2 = m := Real.sq_sqrt (by linarith)
  have hs0 : 0 ≤ s := Real.sqrt_nonneg m
  have hs1 : s ≤ 38.59 := Real.sqrt_le_iff.2 ⟨by norm_num, by norm_num at hm1 ⊢; linarith⟩
  have hs2 : 2.7271 ≤ s := Real.le_sqrt_of_sq_le (by norm_num at hm0 ⊢; linarith)
  have hq' : |q - s| ≤ 9e-16 * 38.59 + tiny := by
    refine hq.trans (add_le_add_left ?_ _)
    rw [abs_of_nonneg hs0]
    exact mul_le_mul hd hs1 hs0 (by norm_num)
  obtain ⟨a1, a2⟩ := abs_le.1 hq'
  have b1 : |q ^ 2 - s ^ 2| ≤ 4e-14 * 78 := by
    rw [show q ^ 2 - s ^ 2 = (q - s) * (q + s) by ring, abs_mul]
    refine mul_le_mul (hq'.trans (by linarith)) ?_ (abs_nonneg _) (by norm_num)
    rw [abs_of_nonneg (by linarith)]; linarith
  obtain ⟨b1, b2⟩ := abs_le.1 b1
  refine ⟨q, by rw [em, eq], by linarith, by linarith, ?_⟩
  have hx : |(-q ^ 2 / 2 - Real.log t)| ≤ 2.5e-12 := abs_le.2 ⟨by linarith, by linarith⟩
  have := abs_exp_sub_one hx (by norm_num)
  have e : Real.exp (-q ^ 2 / 2) = t * Real.exp (-q ^ 2 / 2 - Real.log t) := by
    rw [Real.exp_sub, Real.exp_log ht]; field_simp
  rw [e, show t * Real.exp (-q ^ 2 / 2 - Real.log t) - t = (Real.exp (-q ^ 2 / 2 - Real.log t) - 1) * t by ring, abs_mul, abs_of_pos ht]
  refine mul_le_mul_of_nonneg_right (this.trans ?_) ht.le
  norm_num

/-! ### The approximation -/

/-- the argument of quantile_tail, for an argument with an error -/
theorem quantile {t ζ q : ℝ} (ht : 0 < t) (hq0 : 2.727 ≤ q) (hq1 : q ≤ 38.6) (h : |Real.exp (-q ^ 2 / 2) - t| ≤ 3e-12 * t) (hζ : PhiR (-ζ) = t) :
    1.92 ≤ ζ ∧ ζ ≤ 39.7 ∧ ζ * |AT q - ζ| ≤ 7.3e-6 := by
  obtain ⟨hX, hX'⟩ := AT_bounds hq0 (hq1.trans (by norm_num))
  have g := tail hq0 hq1
  obtain ⟨g1, g2⟩ := abs_le.1 g
  obtain ⟨f1, f2⟩ := abs_le.1 h
  set X := AT q
  have hle : t ≤ (1 + 7.3e-6) * PhiR (-X) := by nlinarith
  have hle' : PhiR (-X) ≤ (1 + 7.25e-6) * t := by nlinarith
  have hz : 1.92 ≤ ζ := by
    by_contra hc
    push Not at hc
    have h2 : PhiR (-1.92) ≤ (1 + 7.3e-6) * PhiR (-X) := by
      refine le_trans ?_ hle
      rw [← hζ]; exact (strictMono_PhiR (by linarith)).le
    have := diff_le (x := 1.92) (y := X) (by norm_num) (by linarith) h2
    linarith
  rcases le_total ζ X with c | c
  · refine ⟨hz, by linarith, ?_⟩
    rw [abs_of_nonneg (by linarith)]
    exact diff_le (by linarith) c (by rw [hζ]; exact hle)
  · have h2 : PhiR (-X) ≤ (1 + 7.25e-6) * PhiR (-ζ) := by rw [hζ]; exact hle'
    have h3 := diff_le (x := X) (by linarith) c h2
    have h4 : ζ - X ≤ 7.25e-6 := by nlinarith
    refine ⟨hz, by linarith, ?_⟩
    rw [abs_of_nonpos (by linarith)]
    nlinarith

/-- The guess in the outer regions: `σ` is 1 in the lower and -1 in the upper one. -/
theorem tail_guess (D : DoubleWithin M d) (hd : d ≤ 9e-16) {t ζ L : ℝ} (h0 : (2 : ℝ)⁻¹ ^ 1074 ≤ t) (h1 : t ≤ 0.02425)
    (hL : |L - Real.log t| ≤ d * |Real.log t| + tiny) (hζ : PhiR (-ζ) = t) :
    1.92 ≤ ζ ∧ ζ ≤ 39.7 ∧ ∃ q y y' : ℝ, M.sqrt (M.mul (fin (-2)) (fin L)) = fin q ∧
      M.div (tailNum M (fin q)) (tailDen M (fin q)) = fin y ∧ ζ * |y + ζ| ≤ 7.4e-6 ∧
      M.div (-tailNum M (fin q)) (tailDen M (fin q)) = fin y' ∧ ζ * |y' - ζ| ≤ 7.4e-6 := by
  have ht : 0 < t := lt_of_lt_of_le (by positivity) h0
  obtain ⟨q, eq, q0, q1, hq⟩ := argument D hd h0 h1 hL
  obtain ⟨z0, z1, hz⟩ := quantile ht q0 q1 hq hζ
  obtain ⟨n, en, hn⟩ := tailN_err D (q := q) (by linarith) (by linarith)
  obtain ⟨e, ee, he⟩ := tailD_err D (q := q) (by linarith) (by linarith)
  obtain ⟨y, ey, hy⟩ := tail_div D (σ := 1) (by norm_num) (by linarith) (by linarith) (by rw [one_mul]; exact hn) he
  obtain ⟨y', ey', hy'⟩ := tail_div D (n := -n) (σ := -1) (by norm_num) (by linarith) (by linarith)
    (by rw [show -n - -1 * tailNE q = -(n - tailNE q) by ring, abs_neg]; exact hn) he
  refine ⟨z0, z1, q, y, y', eq, by rw [en, ee, ey], ?_, by rw [en, ee, neg_fin, ey'], ?_⟩
  · have a := abs_add_le (y + 1 * AT q) (-(AT q - ζ))
    rw [show y + 1 * AT q + -(AT q - ζ) = y + ζ by ring, abs_neg] at a
    have : ζ * |y + ζ| ≤ ζ * |y + 1 * AT q| + ζ * |AT q - ζ| := by rw [← mul_add]; exact mul_le_mul_of_nonneg_left a (by linarith)
    have b : ζ * |y + 1 * AT q| ≤ 39.7 * 2e-13 := mul_le_mul z1 hy (abs_nonneg _) (by norm_num)
    linarith
  · have a := abs_add_le (y' + -1 * AT q) (AT q - ζ)
    rw [show y' + -1 * AT q + (AT q - ζ) = y' - ζ by ring] at a
    have : ζ * |y' - ζ| ≤ ζ * |y' + -1 * AT q| + ζ * |AT q - ζ| := by rw [← mul_add]; exact mul_le_mul_of_nonneg_left a (by linarith)
    have b : ζ * |y' + -1 * AT q| ≤ 39.7 * 2e-13 := mul_le_mul z1 hy' (abs_nonneg _) (by norm_num)
    linarith

end Trng.Inverse
