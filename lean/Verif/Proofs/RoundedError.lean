import Verif.Spec.RoundedInverse
import Verif.Proofs.RoundedMono
import Verif.Proofs.InvPhi

/-! Errors of the operations of `double`. -/
namespace Trng.Inverse
open XR Machine Spec Rounded
open Classical

/-- the smallest positive `double` -/
noncomputable def tiny : ℝ := 2 ^ (-1074 : ℤ)
theorem tiny_pos : 0 < tiny := two_zpow_pos _
theorem tiny_mul : tiny * 2 ^ (1000 : ℕ) ≤ 1e-20 := by
  rw [tiny, ← zpow_natCast, ← zpow_add₀ two_ne_zero]
  norm_num
theorem tiny_le : tiny ≤ 1e-30 := by
  have h : tiny ≤ 2 ^ (-100 : ℤ) := zpow_le_zpow_right₀ one_le_two (by norm_num)
  refine h.trans (by norm_num)

theorem nearestPos_err {x : ℝ} (h0 : 0 ≤ x) : |nearestPos 53 (-1074) x - x| ≤ 2 ^ (-53 : ℤ) * x + tiny / 2 := by
  rcases h0.eq_or_lt with rfl | h0
  · have : nearestPos 53 (-1074) 0 = 0 := by
      unfold nearestPos
      rw [zero_div, show nearestEven (0 : ℝ) = 0 by exact_mod_cast nearestEven_int 0]; simp
    rw [this]; simp only [sub_self, abs_zero, mul_zero, zero_add]; exact (half_pos tiny_pos).le
  unfold nearestPos
  set e := ulpExp 53 (-1074) x with he
  have hp := two_zpow_pos e
  have h1 := nearestEven_close (x / 2 ^ e)
  have h2 : |(nearestEven (x / 2 ^ e) : ℝ) * 2 ^ e - x| ≤ 1 / 2 * 2 ^ e := by
    rw [show (nearestEven (x / 2 ^ e) : ℝ) * 2 ^ e - x = ((nearestEven (x / 2 ^ e) : ℝ) - x / 2 ^ e) * 2 ^ e by field_simp, abs_mul,
      abs_of_pos hp]
    exact mul_le_mul_of_nonneg_right h1 hp.le
  refine h2.trans ?_
  have h3 : (2 : ℝ) ^ e ≤ 2 ^ (-52 : ℤ) * x + tiny := by
    rw [he, ulpExp]
    have hx := log_le h0
    rcases max_cases (Int.log 2 x + 1 - ((53 : ℕ) : ℤ)) (-1074) with ⟨a, -⟩ | ⟨a, -⟩ <;> rw [a]
    · rw [show Int.log 2 x + 1 - ((53 : ℕ) : ℤ) = -52 + Int.log 2 x by push_cast; ring, zpow_add₀ two_ne_zero]
      have := mul_le_mul_of_nonneg_left hx (two_zpow_pos (-52)).le
      linarith [tiny_pos]
    · have : (0 : ℝ) ≤ 2 ^ (-52 : ℤ) * x := mul_nonneg (two_zpow_pos _).le h0.le
      rw [← tiny]; linarith
  have h4 : (2 : ℝ) ^ (-52 : ℤ) = 2 * 2 ^ (-53 : ℤ) := by norm_num
  rw [h4, mul_assoc] at h3
  generalize (2 : ℝ) ^ (-53 : ℤ) * x = A at *
  generalize (2 : ℝ) ^ e = B at *
  linarith

theorem ieee_err {x : ℝ} (h : |x| ≤ 2 ^ (1023 : ℤ)) : ∃ r : ℝ, ieee 53 (-1074) 1024 x = fin r ∧ |r - x| ≤ 2 ^ (-53 : ℤ) * |x| + tiny / 2 := by
  have big : (2 : ℝ) ^ (1024 : ℤ) = 2 ^ (1023 : ℤ) * 2 := by rw [show (1024 : ℤ) = 1023 + 1 by norm_num, zpow_add_one₀ two_ne_zero]
  have one : (1 : ℝ) ≤ 2 ^ (1023 : ℤ) := one_le_zpow₀ one_le_two (by norm_num)
  have key : ∀ y : ℝ, 0 ≤ y → y ≤ 2 ^ (1023 : ℤ) → nearestPos 53 (-1074) y < 2 ^ (1024 : ℤ) := by
    intro y h0 h1
    have := (abs_le.1 (nearestPos_err h0)).2
    have h53 : (2 : ℝ) ^ (-53 : ℤ) ≤ 1 / 2 := by norm_num
    have ht := tiny_le
    have h54 : (2 : ℝ) ^ (-53 : ℤ) * y ≤ 1 / 2 * y := mul_le_mul_of_nonneg_right h53 h0
    rw [big]
    generalize (2 : ℝ) ^ (-53 : ℤ) * y = A at *
    generalize (2 : ℝ) ^ (1023 : ℤ) = B at *
    clear big h53
    linarith
  rcases le_or_gt 0 x with hx | hx
  · rw [abs_of_nonneg hx] at h ⊢
    exact ⟨_, by rw [ieee_nonneg hx, if_neg (not_le.2 (key x hx h))], nearestPos_err hx⟩
  · rw [abs_of_neg hx] at h ⊢
    refine ⟨_, by rw [ieee_neg hx, if_neg (not_le.2 (key (-x) (by linarith) h))], ?_⟩
    have := nearestPos_err (x := -x) (by linarith)
    rw [show -nearestPos 53 (-1074) (-x) - x = -(nearestPos 53 (-1074) (-x) - -x) by ring, abs_neg]
    exact this

/-- bounds that are easier to calculate with -/
theorem err_le {x : ℝ} : (2 : ℝ) ^ (-53 : ℤ) * |x| + tiny / 2 ≤ 1.2e-16 * |x| + tiny := by
  have : (2 : ℝ) ^ (-53 : ℤ) ≤ 1.2e-16 := by norm_num
  have := mul_le_mul_of_nonneg_right this (abs_nonneg x)
  linarith [tiny_pos]

variable {M : Machine} {d : ℝ}

theorem rnd_err (D : DoubleWithin M d) {x : ℝ} (h : |x| ≤ 2 ^ (1020 : ℤ)) : ∃ r : ℝ, M.rnd x = fin r ∧ |r - x| ≤ 1.2e-16 * |x| + tiny := by
  rw [D.rnd]
  obtain ⟨r, e, hr⟩ := ieee_err (h.trans (zpow_le_zpow_right₀ one_le_two (by norm_num)))
  exact ⟨r, e, hr.trans err_le⟩

theorem big_le {x y : ℝ} (h : |x| ≤ y) (hy : y ≤ 1e300) : |x| ≤ 2 ^ (1020 : ℤ) := by
  refine (h.trans hy).trans ?_
  have : (2 : ℝ) ^ (1000 : ℤ) ≤ 2 ^ (1020 : ℤ) := zpow_le_zpow_right₀ one_le_two (by norm_num)
  refine le_trans ?_ this
  have e : (2 : ℝ) ^ (1000 : ℤ) = (2 ^ (10 : ℕ)) ^ (100 : ℕ) := by rw [← pow_mul, ← zpow_natCast]; norm_num
  rw [e]
  calc (1e300 : ℝ) = (10 ^ 3) ^ 100 := by norm_num
    _ ≤ _ := pow_le_pow_left₀ (by norm_num) (by norm_num) _

end Trng.Inverse
