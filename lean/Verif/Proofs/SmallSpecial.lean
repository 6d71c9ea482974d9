import Verif.Proofs.BetaEval
import Mathlib.Analysis.SpecialFunctions.Log.Deriv

/-! `mln1p`, `Pochhammer`, `log(b, x)` and `sqrt(r, x)`. -/
namespace Trng.SmallSpecial
open XR Special

/-- The tail of the series of the logarithm. -/
theorem log_tail {x : ℝ} (hx : |x| < 1) (n : ℕ) :
    |Real.log (1 + x) - ∑ i ∈ Finset.range n, (-1) ^ i * x ^ (i + 1) / (i + 1)| ≤ |x| ^ (n + 1) / (n + 1) / (1 - |x|) := by
  have hs := Real.hasSum_pow_div_log_of_abs_lt_one (x := -x) (by rwa [abs_neg])
  rw [sub_neg_eq_add] at hs
  have ht := (hasSum_nat_add_iff' n).2 hs
  have hg : HasSum (fun i : ℕ => |x| ^ (n + 1) / (n + 1) * |x| ^ i) (|x| ^ (n + 1) / (n + 1) * (1 - |x|)⁻¹) :=
    (hasSum_geometric_of_lt_one (abs_nonneg x) hx).mul_left _
  have h1 : ∀ i : ℕ, ‖(-x) ^ (i + n + 1) / (((i + n : ℕ) : ℝ) + 1)‖ ≤ |x| ^ (n + 1) / (n + 1) * |x| ^ i := by
    intro i
    rw [Real.norm_eq_abs, abs_div, abs_pow, abs_neg, abs_of_pos (by positivity : (0 : ℝ) < ((i + n : ℕ) : ℝ) + 1), div_mul_eq_mul_div, ← pow_add, show n + 1 + i = i + n + 1 by ring]
    push_cast
    gcongr
    linarith [(Nat.cast_nonneg i : (0 : ℝ) ≤ i)]
  have h2 := tsum_of_norm_bounded hg h1
  rw [ht.tsum_eq] at h2
  have h3 : ∑ i ∈ Finset.range n, (-x) ^ (i + 1) / ((i : ℝ) + 1) = -∑ i ∈ Finset.range n, (-1) ^ i * x ^ (i + 1) / (i + 1) := by
    rw [← Finset.sum_neg_distrib]
    refine Finset.sum_congr rfl fun i _ => ?_
    rw [neg_pow x, pow_succ (-1 : ℝ)]; ring
  rw [h3, Real.norm_eq_abs] at h2
  rw [← abs_neg, div_eq_mul_inv _ (1 - |x|)]
  refine le_trans (le_of_eq ?_) h2
  congr 1; ring

/-- The partial sums of `x - ln(1 + x)`. -/
noncomputable def part (x : ℝ) (n : ℕ) : ℝ := x - ∑ i ∈ Finset.range n, (-1) ^ i * x ^ (i + 1) / (i + 1)

theorem part_one (x : ℝ) : part x 1 = 0 := by simp [part]

theorem part_succ (x : ℝ) (n : ℕ) : part x (n + 1) = part x n + (-1) ^ (n + 1) * x ^ (n + 1) / ((n + 1 : ℕ) : ℝ) := by
  rw [part, part, Finset.sum_range_succ, pow_succ (-1 : ℝ)]; push_cast; ring

theorem part_err {x : ℝ} (hx : |x| < 1 / 32) (n : ℕ) : |part x n - (x - Real.log (1 + x))| ≤ |x| ^ (n + 1) / (n + 1) * (32 / 31) := by
  have h := log_tail (by linarith : |x| < 1) n
  rw [part, show x - ∑ i ∈ Finset.range n, (-1) ^ i * x ^ (i + 1) / ((i : ℝ) + 1) - (x - Real.log (1 + x)) =
    Real.log (1 + x) - ∑ i ∈ Finset.range n, (-1) ^ i * x ^ (i + 1) / ((i : ℝ) + 1) by ring]
  refine h.trans ?_
  rw [div_eq_mul_inv _ (1 - |x|)]
  refine mul_le_mul_of_nonneg_left ?_ (by positivity)
  rw [inv_le_comm₀ (by linarith) (by norm_num)]
  linarith

theorem mln1p_lower {x : ℝ} (hx : |x| < 1 / 32) : 15 / 32 * x ^ 2 ≤ x - Real.log (1 + x) := by
  have h := part_err hx 2
  have h0 := abs_nonneg x
  rw [show part x 2 = x ^ 2 / 2 by rw [part_succ, part_one]; norm_num] at h
  have h1 := (abs_le.1 h).2
  have h2 : |x| ^ (2 + 1) ≤ 1 / 32 * x ^ 2 := by
    rw [pow_succ, sq_abs]; nlinarith [sq_nonneg x]
  have h3 : |x| ^ (2 + 1) / ((2 : ℕ) + 1) * (32 / 31) ≤ 1 / 32 * x ^ 2 := by
    have h5 : 0 ≤ |x| ^ (2 + 1) := by positivity
    push_cast
    nlinarith
  linarith

theorem mln1pLoop_fin (L : Limits) {x : ℝ} (hx : |x| < 1 / 32) (hL : 0 < L.epsilon) (hL1 : L.epsilon ≤ 1) :
    ∀ k n : ℕ, 1 ≤ n → ∃ y : ℝ, mln1pLoop L (fin x) k (n + 1) (fin (part x n)) (fin (x ^ (n + 1))) (fin ((-1) ^ (n + 1))) = fin y ∧
      (|y - (x - Real.log (1 + x))| ≤ L.epsilon * (x - Real.log (1 + x)) ∨ y = part x (n + k)) := by
  intro k
  induction k with
  | zero => intro n _; exact ⟨_, rfl, Or.inr rfl⟩
  | succ k ih =>
    intro n hn
    have hn0 : ((n + 1 : ℕ) : ℝ) ≠ 0 := by positivity
    rw [mln1pLoop]
    simp only [fin_mul, fin_div hn0, fin_add, abs_fin, ofNat_fin, fin_lt, ← part_succ, Nat.cast_ofNat]
    split_ifs with hc
    · refine ⟨_, rfl, Or.inl ?_⟩
      have he := part_err hx (n + 1)
      have hb : |(-1) ^ (n + 1) * x ^ (n + 1) / ((n + 1 : ℕ) : ℝ)| = |x| ^ (n + 1) / ((n + 1 : ℕ) : ℝ) := by
        rw [abs_div, abs_mul, abs_pow, abs_neg, abs_one, one_pow, one_mul, abs_pow, abs_of_pos (by positivity : (0 : ℝ) < ((n + 1 : ℕ) : ℝ))]
      rw [hb] at hc
      have hpow : |x| ^ (n + 1 + 1) / (((n + 1 : ℕ) : ℝ) + 1) ≤ |x| ^ (n + 1) / ((n + 1 : ℕ) : ℝ) * (1 / 32) := by
        rw [pow_succ, mul_div_assoc, div_mul_eq_mul_div, mul_div_assoc]
        refine mul_le_mul_of_nonneg_left ?_ (by positivity)
        refine div_le_div₀ (by norm_num) hx.le (by positivity) (by linarith)
      have hS : 0 ≤ x - Real.log (1 + x) := le_trans (by positivity) (mln1p_lower hx)
      have habs := (abs_le.1 he).2
      set S := x - Real.log (1 + x)
      set P := part x (n + 1)
      set A := |x| ^ (n + 1) / ((n + 1 : ℕ) : ℝ)
      have hA : |P - S| ≤ A / 31 := by linarith
      have hP : P ≤ S + A / 31 := by linarith [(abs_le.1 hA).2]
      have hA0 : 0 ≤ A := by positivity
      have hA4 : A ≤ 4 * L.epsilon * (S + A / 31) := hc.le.trans (mul_le_mul_of_nonneg_left hP (by positivity))
      have hA5 : A ≤ 4 * L.epsilon * S + 4 * A / 31 := by nlinarith
      nlinarith
    · obtain ⟨y, e, h⟩ := ih (n + 1) (by omega)
      refine ⟨y, ?_, ?_⟩
      · rw [← e]
        congr 1
        rw [pow_succ (-1 : ℝ) (n + 1)]
        show fin (-(-1) ^ (n + 1)) = _
        congr 1; ring
      · rwa [show n + (k + 1) = n + 1 + k by ring]

/-- `mln1p` near zero. -/
theorem mln1p_small (L : Limits) {x : ℝ} (hx : |x| < 1 / 32) (hL1 : L.epsilon ≤ 1) (hd : 3 ≤ L.digits) (hL : 32⁻¹ ^ (L.digits - 2) ≤ L.epsilon) :
    ∃ y : ℝ, mln1p L (fin x) = fin y ∧ |y - (x - Real.log (1 + x))| ≤ L.epsilon * (x - Real.log (1 + x)) := by
  have he : 0 < L.epsilon := lt_of_lt_of_le (by positivity) hL
  obtain ⟨y, e, h⟩ := mln1pLoop_fin L hx he hL1 (L.digits - 2) 1 le_rfl
  have hS := mln1p_lower hx
  refine ⟨y, ?_, ?_⟩
  · rw [mln1p, if_neg, ← e, part_one]
    · simp [pow_succ]
    · simp only [ofNat_fin, abs_fin, Nat.cast_one, Nat.cast_ofNat]
      rw [fin_div (by norm_num), fin_le]; linarith
  · rcases h with h | h
    · exact h
    · rw [h, show 1 + (L.digits - 2) = L.digits - 1 by omega]
      refine (part_err hx _).trans ?_
      have h1 : |x| ^ (L.digits - 1 + 1) = x ^ 2 * |x| ^ (L.digits - 2) := by
        rw [← sq_abs, ← pow_add]; congr 1; omega
      have h2 : |x| ^ (L.digits - 2) ≤ L.epsilon := le_trans (pow_le_pow_left₀ (abs_nonneg x) (by rw [← one_div]; exact hx.le) _) hL
      have h3 : (3 : ℝ) ≤ ((L.digits - 1 : ℕ) : ℝ) + 1 := by
        have : 3 ≤ L.digits - 1 + 1 := by omega
        exact_mod_cast this
      rw [h1]
      have h4 : x ^ 2 * |x| ^ (L.digits - 2) / (((L.digits - 1 : ℕ) : ℝ) + 1) ≤ x ^ 2 * L.epsilon / 3 :=
        div_le_div₀ (by positivity) (mul_le_mul_of_nonneg_left h2 (sq_nonneg x)) (by norm_num) h3
      nlinarith [sq_nonneg x, mul_nonneg he.le (sq_nonneg x)]

/-- The logarithm of the Gamma function where `Gamma` is negative. -/
theorem lnGamma_neg_half : lnGamma (fin (-(1 / 2))) = fin (Real.log (2 * Real.sqrt Real.pi)) := by
  have h : Real.Gamma (-(1 / 2) + 1) = -(1 / 2) * Real.Gamma (-(1 / 2)) := Real.Gamma_add_one (by norm_num)
  rw [show (-(1 / 2) + 1 : ℝ) = 1 / 2 by norm_num, Real.Gamma_one_half_eq] at h
  have h2 : Real.Gamma (-(1 / 2)) = -(2 * Real.sqrt Real.pi) := by linarith
  rw [lnGamma, if_neg, h2, abs_neg, abs_of_pos (by positivity)]
  rintro ⟨n, hn⟩
  have : (2 * n : ℝ) = 1 := by linarith
  have : 2 * n = 1 := by exact_mod_cast this
  omega

end Trng.SmallSpecial
