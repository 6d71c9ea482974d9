import Verif.Proofs.RoundedWrong
import Verif.Proofs.RoundedCdf
import Mathlib.Analysis.Complex.Exponential

/-! `logistic_dist<double>::cdf` decreases between two neighbouring numbers. -/
namespace Trng
open XR Spec Machine Rounded
open Classical

/-- Rounding half-way between two numbers goes to the even one. -/
theorem dbl_tie {n : ℕ} {e : ℤ} (h0 : 2 ^ 52 ≤ n) (h1 : n + 1 < 2 ^ 53) (hodd : n % 2 = 1) (he : -1074 ≤ e) (he' : e ≤ 971) {x : ℝ}
    (hx : x = n * 2 ^ e + 2 ^ (e - 1)) : doubleMachine.rnd x = fin (((n + 1 : ℕ) : ℝ) * 2 ^ e) := by
  have hp := two_zpow_pos e
  have hh : (2 : ℝ) ^ (e - 1) = 2 ^ e / 2 := by rw [zpow_sub_one₀ two_ne_zero]; ring
  have hn0 : (2 : ℝ) ^ 52 ≤ n := by exact_mod_cast h0
  have hn1 : (n : ℝ) + 1 < 2 ^ 53 := by exact_mod_cast h1
  have hx' : x = (n + 1 / 2) * 2 ^ e := by rw [hx, hh]; ring
  have hxp : 0 < x := by rw [hx']; positivity
  have a0 : (2 : ℝ) ^ (52 + e) ≤ x := by
    rw [zpow_add₀ two_ne_zero, hx']
    refine mul_le_mul_of_nonneg_right ?_ hp.le
    rw [show (2 : ℝ) ^ (52 : ℤ) = 2 ^ 52 from zpow_natCast 2 52]; linarith
  have a1 : x < (2 : ℝ) ^ (53 + e) := by
    rw [zpow_add₀ two_ne_zero, hx']
    refine mul_lt_mul_of_pos_right ?_ hp
    rw [show (2 : ℝ) ^ (53 : ℤ) = 2 ^ 53 from zpow_natCast 2 53]; linarith
  have a : Int.log 2 x < 53 + e := (zpow_lt_zpow_iff_right₀ (one_lt_two (α := ℝ))).1 ((log_le hxp).trans_lt a1)
  have b : 52 + e < Int.log 2 x + 1 := (zpow_lt_zpow_iff_right₀ (one_lt_two (α := ℝ))).1 (a0.trans_lt lt_log)
  have hu : ulpExp 53 (-1074) x = e := by unfold ulpExp; omega
  have hv : nearestPos 53 (-1074) x = ((n + 1 : ℕ) : ℝ) * 2 ^ e := by
    unfold nearestPos
    rw [hu, show x / 2 ^ e = n + 1 / 2 by rw [hx']; field_simp]
    have hf : ⌊(n + 1 / 2 : ℝ)⌋ = (n : ℤ) := by rw [Int.floor_eq_iff]; constructor <;> push_cast <;> linarith
    rw [nearestEven, hf, if_neg (by push_cast; linarith), if_neg (by push_cast; linarith), if_neg (by omega)]
    push_cast; ring
  rw [dbl_rnd, ieee_nonneg hxp.le, hv, if_neg]
  rw [not_le]
  push_cast
  calc ((n : ℝ) + 1) * 2 ^ e < 2 ^ 53 * 2 ^ e := mul_lt_mul_of_pos_right hn1 hp
    _ = 2 ^ (53 + e) := by rw [zpow_add₀ two_ne_zero]; norm_num
    _ ≤ 2 ^ (1024 : ℤ) := zpow_le_zpow_right₀ one_le_two (by omega)

namespace Rounded

/-- The beginning of the series of `exp(-k / 2^53)`. -/
def taylor (k : ℕ) : ℚ := ∑ m ∈ Finset.range 22, (-(k : ℚ) / 2 ^ 53) ^ m / m.factorial

/-- Rounding of `exp(-x)` for `x ≤ 1`, from a Taylor polynomial. -/
theorem dbl_exp_taylor {k n : ℕ} (hk : k ≤ 2 ^ 53) (hn0 : 2 ^ 52 + 1 ≤ n) (hn1 : n < 2 ^ 53)
    (h : |taylor k - (n : ℚ) / 2 ^ 54| + 1 / 10 ^ 20 < 1 / 2 ^ 55) :
    doubleMachine.exp (fin (-(k * 2 ^ (-53 : ℤ)))) = fin (n * 2 ^ (-54 : ℤ)) := by
  have hk' : (k : ℝ) ≤ 2 ^ 53 := by exact_mod_cast hk
  have hx : |(-(k : ℝ) / 2 ^ 53)| ≤ 1 := by
    rw [abs_div, abs_neg, Nat.abs_cast, abs_of_pos (by positivity), div_le_one (by positivity)]; exact hk'
  have e1 : (-((k : ℝ) * 2 ^ (-53 : ℤ))) = -(k : ℝ) / 2 ^ 53 := by rw [zpow_neg, show (2 : ℝ) ^ (53 : ℤ) = 2 ^ 53 from zpow_natCast 2 53]; ring
  have hb := Real.exp_bound hx (n := 22) (by norm_num)
  have e2 : (∑ m ∈ Finset.range 22, (-(k : ℝ) / 2 ^ 53) ^ m / m.factorial) = ((taylor k : ℚ) : ℝ) := by rw [taylor]; push_cast; rfl
  rw [e2] at hb
  have hb' : |Real.exp (-(k : ℝ) / 2 ^ 53) - (taylor k : ℝ)| ≤ 1 / 10 ^ 20 := by
    refine hb.trans ((mul_le_mul_of_nonneg_right (pow_le_one₀ (abs_nonneg _) hx) (by positivity)).trans ?_)
    rw [one_mul, show Nat.factorial 22 = 1124000727777607680000 by decide +kernel]
    norm_num
  have hc : |(taylor k : ℝ) - n / 2 ^ 54| + 1 / 10 ^ 20 < 1 / 2 ^ 55 := by
    have : ((|taylor k - (n : ℚ) / 2 ^ 54| + 1 / 10 ^ 20 : ℚ) : ℝ) < ((1 / 2 ^ 55 : ℚ) : ℝ) := Rat.cast_lt.2 h
    push_cast at this
    exact this
  have hd : |Real.exp (-(k : ℝ) / 2 ^ 53) - n / 2 ^ 54| < 1 / 2 ^ 55 := by
    have := abs_sub_le (Real.exp (-(k : ℝ) / 2 ^ 53)) (taylor k : ℝ) (n / 2 ^ 54)
    linarith
  have hn : (2 ^ 52 + 1 : ℝ) ≤ n := by exact_mod_cast hn0
  obtain ⟨d1, d2⟩ := abs_lt.1 hd
  show doubleMachine.rnd (Real.exp _) = _
  rw [e1]
  generalize Real.exp (-(k : ℝ) / 2 ^ 53) = y at d1 d2 ⊢
  refine ieee_near (by norm_num) (by norm_num) (by norm_num) hn1 ?_ ?_ ?_
  · norm_num at d1 ⊢; linarith
  · norm_num at d1 ⊢; linarith
  · norm_num at d2 ⊢; linarith

theorem taylor1 : |taylor 7205759403792796 - ((8094391021460358 : ℕ) : ℚ) / 2 ^ 54| + 1 / 10 ^ 20 < 1 / 2 ^ 55 := by decide +kernel
theorem taylor2 : |taylor 7205759403792797 - ((8094391021460357 : ℕ) : ℚ) / 2 ^ 54| + 1 / 10 ^ 20 < 1 / 2 ^ 55 := by decide +kernel

theorem logistic_below {k n : ℕ} {w r : ℝ} (hk0 : 0 < k) (hk : k < 2 ^ 53) (e : doubleMachine.exp (fin (-(k * 2 ^ (-53 : ℤ)))) = fin (n * 2 ^ (-54 : ℤ)))
    (hw : doubleMachine.rnd (1 + n * 2 ^ (-54 : ℤ)) = fin w) (hw0 : w ≠ 0) (hr : doubleMachine.rnd (n * 2 ^ (-54 : ℤ) / w) = fin r) :
    (logistic doubleMachine 1 0).cdf (fin (-(k * 2 ^ (-53 : ℤ)))) = fin r := by
  have R := double_sound.rounding
  have hr' := R.neg _ (dbl_dyadic (n := k) (e := -53) hk (by norm_num) (by norm_num))
  have hpos : (0 : ℝ) < k * 2 ^ (-53 : ℤ) := mul_pos (Nat.cast_pos.2 hk0) (two_zpow_pos _)
  simp only [logistic]
  rw [zero_def, one_def, sub_fin, sub_zero, hr', div_fin _ one_ne_zero, div_one, hr']
  have ea : -XR.abs (fin (-((k : ℝ) * 2 ^ (-53 : ℤ)))) = fin (-((k : ℝ) * 2 ^ (-53 : ℤ))) := by
    show -(fin |(-((k : ℝ) * 2 ^ (-53 : ℤ)))|) = _
    rw [abs_neg, abs_of_pos hpos, neg_fin]
  rw [ea, e, if_neg (by rw [fin_le]; linarith), add_fin, hw, div_fin _ hw0, hr]

theorem logistic_decreases : ¬ CdfIncreases doubleMachine (logistic doubleMachine 1 0).cdf := by
  have v1 : (logistic doubleMachine 1 0).cdf (fin (-((7205759403792796 : ℕ) * 2 ^ (-53 : ℤ)))) = fin ((0x13d775461ede93 : ℕ) * 2 ^ (-54 : ℤ)) := by
    refine logistic_below (w := (0x173073916076e2 : ℕ) * 2 ^ (-52 : ℤ)) (by norm_num) (by norm_num) (dbl_exp_taylor (by norm_num) (by norm_num) (by norm_num) taylor1) ?_ (by norm_num) ?_
    · exact dbl_tie (n := 0x173073916076e1) (by norm_num) (by norm_num) (by norm_num) (by norm_num) (by norm_num) (by norm_num)
    · exact ieee_near (by norm_num) (by norm_num) (by norm_num) (by norm_num) (by norm_num) (by norm_num) (by norm_num)
  have v2 : (logistic doubleMachine 1 0).cdf (fin (-((7205759403792797 : ℕ) * 2 ^ (-53 : ℤ)))) = fin ((0x13d775461ede94 : ℕ) * 2 ^ (-54 : ℤ)) := by
    refine logistic_below (w := (0x173073916076e1 : ℕ) * 2 ^ (-52 : ℤ)) (by norm_num) (by norm_num) (dbl_exp_taylor (by norm_num) (by norm_num) (by norm_num) taylor2) ?_ (by norm_num) ?_
    · exact ieee_near (by norm_num) (by norm_num) (by norm_num) (by norm_num) (by norm_num) (by norm_num) (by norm_num)
    · exact ieee_near (by norm_num) (by norm_num) (by norm_num) (by norm_num) (by norm_num) (by norm_num) (by norm_num)
  intro h
  have val : ∀ k : ℕ, k < 2 ^ 53 → Value doubleMachine (fin (-((k : ℝ) * 2 ^ (-53 : ℤ)))) := fun k hk =>
    Or.inr (Or.inr ⟨_, rfl, double_sound.rounding.neg _ (dbl_dyadic hk (by norm_num) (by norm_num))⟩)
  have := h _ _ (val 7205759403792797 (by norm_num)) (val 7205759403792796 (by norm_num)) ((fin_le _ _).2 (by norm_num))
  rw [v1, v2, fin_le] at this
  norm_num at this

end Rounded
end Trng
