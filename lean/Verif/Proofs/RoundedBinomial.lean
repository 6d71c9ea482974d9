import Verif.Proofs.RoundedTable

/-! The table of binomial_dist in rounded arithmetic. -/
namespace Trng.PeriodLaw
open XR Spec Inverse Trng.Discrete

variable {M : Machine} {d : ℝ}

/-- The exponential function of an approximate logarithm. -/
theorem exp_entry (D : DoubleWithin M d) (hd : d ≤ 9e-16) {v w η : ℝ} (hw : 0 < w) (hw1 : Real.log w ≤ 700) (h : |v - Real.log w| ≤ η) (hη : η ≤ 0.001) :
    ∃ a, M.exp (fin v) = fin a ∧ |a - w| ≤ (1.001 * η + 1e-15) * w + 1e-30 := by
  obtain ⟨h1, h2⟩ := abs_le.1 h
  obtain ⟨a, ea, ha⟩ := D.exp v (by linarith)
  refine ⟨a, ea, ?_⟩
  change _ ≤ _ + tiny at ha
  have ht := tiny_le
  have e : Real.exp v = w * Real.exp (v - Real.log w) := by rw [Real.exp_sub, Real.exp_log hw, mul_div_cancel₀ _ hw.ne']
  set x := v - Real.log w
  have h3 : |Real.exp x - 1 - x| ≤ x ^ 2 := Real.abs_exp_sub_one_sub_id_le (by linarith)
  have hx0 := abs_nonneg x
  have h4 : |Real.exp x - 1| ≤ 1.001 * η := by
    have := abs_add_le (Real.exp x - 1 - x) x
    rw [sub_add_cancel] at this
    have h5 : x ^ 2 ≤ 0.001 * η := by rw [← sq_abs]; nlinarith
    linarith
  rw [e, abs_of_pos (mul_pos hw (Real.exp_pos _))] at ha
  have h5 := abs_le.1 h4
  have h6 : |a - w| ≤ |a - w * Real.exp x| + w * |Real.exp x - 1| := by
    have : a - w = (a - w * Real.exp x) + w * (Real.exp x - 1) := by ring
    rw [this]
    refine (abs_add_le _ _).trans ?_
    rw [abs_mul, abs_of_pos hw]
  have h7 : d * (w * Real.exp x) ≤ 1e-15 * w := by
    have : d * (w * Real.exp x) ≤ 9e-16 * (w * Real.exp x) := mul_le_mul_of_nonneg_right hd (by positivity)
    have h8 : w * Real.exp x ≤ w * 1.01 := mul_le_mul_of_nonneg_left (by linarith) hw.le
    linarith
  have h9 : w * |Real.exp x - 1| ≤ w * (1.001 * η) := mul_le_mul_of_nonneg_left h4 hw.le
  linarith

theorem log_choose_succ {n i : ℕ} (h : i < n) : Real.log (n.choose (i + 1)) = Real.log (n.choose i) + Real.log ((n : ℝ) - i) - Real.log ((i : ℝ) + 1) := by
  have h1 : (0 : ℝ) < n.choose (i + 1) := by exact_mod_cast Nat.choose_pos (by omega)
  have h2 : (0 : ℝ) < n.choose i := by exact_mod_cast Nat.choose_pos (by omega)
  have h3 : (0 : ℝ) < (n : ℝ) - i := by
    have : (i : ℝ) < n := by exact_mod_cast h
    linarith
  have h4 : (0 : ℝ) < (i : ℝ) + 1 := by positivity
  have e : (n.choose (i + 1) : ℝ) * ((i : ℝ) + 1) = n.choose i * ((n : ℝ) - i) := by
    have := Nat.choose_succ_right_eq n i
    rw [← Nat.cast_sub h.le]
    exact_mod_cast this
  rw [eq_sub_iff_add_eq, ← Real.log_mul h1.ne' h4.ne', ← Real.log_mul h2.ne' h3.ne', e]

theorem log_choose_bounds {n i : ℕ} (h : i ≤ n) : 0 ≤ Real.log (n.choose i) ∧ Real.log (n.choose i) ≤ n := by
  have h1 : 1 ≤ n.choose i := Nat.choose_pos h
  refine ⟨Real.log_nonneg (by exact_mod_cast h1), ?_⟩
  have h2 : (n.choose i : ℝ) ≤ 2 ^ n := by exact_mod_cast Nat.choose_le_two_pow n i
  have h3 := Real.log_le_log (by exact_mod_cast h1) h2
  rw [Real.log_pow] at h3
  have := Real.log_two_lt_d9
  have hn : (0 : ℝ) ≤ n := Nat.cast_nonneg n
  nlinarith

/-- Logarithm of an integer. -/
theorem ln_nat (D : DoubleWithin M d) (hd : d ≤ 9e-16) {x : ℝ} (h1 : 1 ≤ x) (h2 : x ≤ 1000001) :
    ∃ r, M.ln (fin x) = fin r ∧ |r - Real.log x| ≤ 1.3e-14 ∧ |Real.log x| ≤ 14 := by
  have h0 := Real.log_nonneg h1
  have h3 : Real.log x ≤ 14 := by
    rw [Real.log_le_iff_le_exp (by linarith)]
    have : (2.7 : ℝ) ^ 14 ≤ Real.exp 14 := by
      rw [show (14 : ℝ) = (14 : ℕ) * 1 by norm_num, Real.exp_nat_mul]
      exact pow_le_pow_left₀ (by norm_num) (by linarith [Real.exp_one_gt_d9]) _
    exact h2.trans (le_trans (by norm_num) this)
  have h4 : |Real.log x| ≤ 14 := by rw [abs_of_nonneg h0]; exact h3
  obtain ⟨r, er, hr⟩ := D.ln x (by linarith) (h4.trans (by norm_num))
  change _ ≤ _ + tiny at hr
  have ht := tiny_le
  refine ⟨r, er, ?_, h4⟩
  have : d * |Real.log x| ≤ 9e-16 * 14 := mul_le_mul hd h4 (abs_nonneg _) (by norm_num)
  linarith

/-- One step of the logarithm of the binomial coefficient. -/
theorem binom_step (D : DoubleWithin M d) (hd : d ≤ 9e-16) {n i : ℕ} (hn : n ≤ 1000000) (hi : i < n) {b β : ℝ} (hβ : β = 2.4e-16 * n + 3.5e-14)
    (h : |b - Real.log (n.choose i)| ≤ i * β) :
    ∃ b', M.sub (M.add (fin b) (M.ln (ofInt ((n : ℤ) - i)))) (M.ln (ofInt ((i : ℤ) + 1))) = fin b' ∧ |b' - Real.log (n.choose (i + 1))| ≤ (i + 1) * β := by
  have hin : (i : ℝ) + 1 ≤ n := by exact_mod_cast hi
  have hi0 : (0 : ℝ) ≤ i := Nat.cast_nonneg i
  have hnr : (n : ℝ) ≤ 1000000 := by exact_mod_cast hn
  obtain ⟨r1, e1, a1, c1⟩ := ln_nat D hd (x := (n : ℝ) - i) (by linarith) (by linarith)
  obtain ⟨r2, e2, a2, c2⟩ := ln_nat D hd (x := (i : ℝ) + 1) (by linarith) (by linarith)
  obtain ⟨l0, l1⟩ := log_choose_bounds hi.le
  have hiβ : i * β ≤ 1 := by
    have : β ≤ 3e-10 := by rw [hβ]; linarith
    have hβ0 : 0 ≤ β := by rw [hβ]; positivity
    nlinarith
  have hb := abs_le.1 h
  have a1' := abs_le.1 a1
  have a2' := abs_le.1 a2
  have c1' := abs_le.1 c1
  have c2' := abs_le.1 c2
  have hs1 : |b + r1| ≤ n + 16 := abs_le.2 ⟨by linarith, by linarith⟩
  have ht := tiny_le
  obtain ⟨x, ex, hx⟩ := rnd_err D (x := b + r1) (big_le (y := 1e10) (by linarith) (by norm_num))
  have hx2 : |x - (b + r1)| ≤ 1.2e-16 * (n + 16) + 1e-30 := by linarith
  have hx3 := abs_le.1 hx2
  have hs2 : |x - r2| ≤ n + 31 := by
    have := abs_le.1 hs1
    exact abs_le.2 ⟨by linarith, by linarith⟩
  obtain ⟨y, ey, hy⟩ := rnd_err D (x := x - r2) (big_le (y := 1e10) (by linarith) (by norm_num))
  have hy2 : |y - (x - r2)| ≤ 1.2e-16 * (n + 31) + 1e-30 := by linarith
  have hy3 := abs_le.1 hy2
  refine ⟨y, ?_, ?_⟩
  · unfold ofInt
    push_cast
    rw [e1, e2, Machine.add_fin, ex, Machine.sub_fin, ey]
  · rw [log_choose_succ hi]
    have e : ((i : ℝ) + 1) * β = i * β + β := by ring
    rw [e]
    nth_rw 2 [hβ]
    exact abs_le.2 ⟨by linarith, by linarith⟩

/-- Logarithms of p and 1 - p. -/
theorem ln_prob (D : DoubleWithin M d) (hd : d ≤ 9e-16) {p : ℝ} (p0 : 2 ^ (-53 : ℤ) ≤ p) (p1 : p ≤ 1 - 2 ^ (-53 : ℤ)) :
    ∃ a b, M.ln (fin p) = fin a ∧ M.ln (M.sub 1 (fin p)) = fin b ∧ |a - Real.log p| ≤ 3.5e-14 ∧ |b - Real.log (1 - p)| ≤ 3.5e-14 ∧
      |Real.log p| ≤ 37 ∧ |Real.log (1 - p)| ≤ 37 := by
  have h53 : (0 : ℝ) < 2 ^ (-53 : ℤ) := by positivity
  have L : ∀ x : ℝ, 2 ^ (-53 : ℤ) ≤ x → x ≤ 1 → |Real.log x| ≤ 36.9 := fun x h1 h2 => by
    have := Real.log_le_log h53 h1
    rw [Real.log_zpow] at this
    push_cast at this
    have h3 := Real.log_nonpos (by linarith) h2
    exact abs_le.2 ⟨by linarith [Real.log_two_lt_d9], by linarith⟩
  have lp := L p p0 (by linarith)
  have lq := L (1 - p) (by linarith) (by linarith)
  have hq : 0 < 1 - p := by linarith
  have ht := tiny_le
  obtain ⟨a, ea, ha⟩ := D.ln p (by linarith) (lp.trans (by norm_num))
  change _ ≤ _ + tiny at ha
  obtain ⟨q, eq, hqr⟩ := rnd_near D (x := 1 - p) (le_trans (zpow_le_zpow_right₀ one_le_two (by norm_num)) (show (2 : ℝ) ^ (-53 : ℤ) ≤ 1 - p by linarith))
    (le_trans (by linarith : 1 - p ≤ 1) (one_le_zpow₀ one_le_two (by norm_num)))
  obtain ⟨q1, q2⟩ := log_rel hq hqr (by norm_num)
  have lq' := abs_le.1 lq
  have q3 := abs_le.1 q2
  have lq2 : |Real.log q| ≤ 37 := abs_le.2 ⟨by linarith, by linarith⟩
  obtain ⟨b, eb, hb⟩ := D.ln q q1 (lq2.trans (by norm_num))
  change _ ≤ _ + tiny at hb
  have m1 : d * |Real.log p| ≤ 9e-16 * 36.9 := mul_le_mul hd lp (abs_nonneg _) (by norm_num)
  have m2 : d * |Real.log q| ≤ 9e-16 * 37 := mul_le_mul hd lq2 (abs_nonneg _) (by norm_num)
  have hb2 := abs_le.1 (hb.trans (add_le_add m2 ht))
  refine ⟨a, b, ea, ?_, by linarith, abs_le.2 ⟨by linarith, by linarith⟩, by linarith, by linarith⟩
  rw [one_def, Machine.sub_fin, eq, eb]

/-- A binomial probability. -/
noncomputable def binW (p : ℝ) (n i : ℕ) : ℝ := (n.choose i : ℝ) * p ^ i * (1 - p) ^ (n - i)

theorem log_binW {p : ℝ} (h0 : 0 < p) (h1 : p < 1) {n i : ℕ} (h : i ≤ n) :
    Real.log (binW p n i) = Real.log (n.choose i) + i * Real.log p + ((n : ℝ) - i) * Real.log (1 - p) := by
  have h2 : (0 : ℝ) < n.choose i := by exact_mod_cast Nat.choose_pos h
  have h3 : 0 < 1 - p := by linarith
  rw [binW, Real.log_mul (by positivity) (by positivity), Real.log_mul h2.ne' (by positivity), Real.log_pow, Real.log_pow, Nat.cast_sub h]

theorem binW_pos {p : ℝ} (h0 : 0 < p) (h1 : p < 1) {n i : ℕ} (h : i ≤ n) : 0 < binW p n i := by
  have h2 : (0 : ℝ) < n.choose i := by exact_mod_cast Nat.choose_pos h
  have h3 : 0 < 1 - p := by linarith
  unfold binW
  positivity

theorem binW_nonneg {p : ℝ} (h0 : 0 < p) (h1 : p < 1) (n i : ℕ) : 0 ≤ binW p n i := by
  have h3 : 0 < 1 - p := by linarith
  unfold binW
  positivity

theorem binW_sum (p : ℝ) (n : ℕ) : ∑ i ∈ Finset.range (n + 1), binW p n i = 1 := by
  have := add_pow p (1 - p) n
  rw [add_sub_cancel, one_pow] at this
  rw [this]
  exact Finset.sum_congr rfl fun i _ => by unfold binW; ring

theorem binW_le {p : ℝ} (h0 : 0 < p) (h1 : p < 1) {n i : ℕ} (h : i ≤ n) : binW p n i ≤ 1 := by
  rw [← binW_sum p n]
  exact Finset.single_le_sum (f := binW p n) (fun j _ => binW_nonneg h0 h1 n j) (Finset.mem_range.2 (by omega))

/-- The argument of the exponential function. -/
theorem binom_arg (D : DoubleWithin M d) {p : ℝ} (p0 : 0 < p) (p1 : p < 1) {n i : ℕ} (hn : n ≤ 1000000) (hi : i ≤ n) {b β lp lq : ℝ} (hβ : β = 2.4e-16 * n + 3.5e-14)
    (h : |b - Real.log (n.choose i)| ≤ i * β) (h1 : |lp - Real.log p| ≤ 3.5e-14) (h2 : |lq - Real.log (1 - p)| ≤ 3.5e-14) (h3 : |Real.log p| ≤ 37) (h4 : |Real.log (1 - p)| ≤ 37) :
    ∃ v, M.add (M.add (fin b) (M.mul (ofInt i) (fin lp))) (M.mul (ofInt ((n : ℤ) - i)) (fin lq)) = fin v ∧
      |v - Real.log (binW p n i)| ≤ 2.4e-16 * n ^ 2 + 1.3e-13 * n + 7e-16 := by
  rw [log_binW p0 p1 hi]
  have hin : (i : ℝ) ≤ n := by exact_mod_cast hi
  have hi0 : (0 : ℝ) ≤ i := Nat.cast_nonneg i
  have hnr : (n : ℝ) ≤ 1000000 := by exact_mod_cast hn
  have ht := tiny_le
  have hβ0 : 0 ≤ β := by rw [hβ]; positivity
  have hiβ : i * β ≤ n * β := mul_le_mul_of_nonneg_right hin hβ0
  have hnβ : n * β = 2.4e-16 * n ^ 2 + 3.5e-14 * n := by rw [hβ]; ring
  have hnβ1 : n * β ≤ 1 := by
    have : β ≤ 3e-10 := by rw [hβ]; linarith
    nlinarith
  -- a product of an integer and an approximate logarithm
  have prod : ∀ {k l L : ℝ}, 0 ≤ k → k ≤ n → |l - L| ≤ 3.5e-14 → |L| ≤ 37 → ∃ x, M.mul (fin k) (fin l) = fin x ∧ |x - k * L| ≤ 4e-14 * n + 1e-30 ∧ |k * L| ≤ 37 * n := by
    intro k l L k0 kn hl hL
    have hl2 : |l| ≤ 37.1 := by
      have := abs_add_le (l - L) L
      rw [sub_add_cancel] at this; linarith
    have hkl : |k * l| ≤ n * 37.1 := by
      rw [abs_mul, abs_of_nonneg k0]
      exact mul_le_mul kn hl2 (abs_nonneg _) (by linarith)
    obtain ⟨x, ex, hx⟩ := rnd_err D (x := k * l) (big_le (y := 1e10) (by linarith) (by norm_num))
    refine ⟨x, by rw [Machine.mul_fin, ex], ?_, ?_⟩
    · have e : x - k * L = (x - k * l) + k * (l - L) := by ring
      rw [e]
      refine (abs_add_le _ _).trans ?_
      rw [abs_mul k, abs_of_nonneg k0]
      have : k * |l - L| ≤ n * 3.5e-14 := mul_le_mul kn hl (abs_nonneg _) (by linarith)
      linarith
    · rw [abs_mul, abs_of_nonneg k0]
      have : k * |L| ≤ n * 37 := mul_le_mul kn hL (abs_nonneg _) (by linarith)
      linarith
  obtain ⟨x, ex, hx, bx⟩ := prod hi0 hin h1 h3
  obtain ⟨y, ey, hy, by'⟩ := prod (k := (n : ℝ) - i) (by linarith) (by linarith) h2 h4
  obtain ⟨l0, l1⟩ := log_choose_bounds hi
  have hb := abs_le.1 h
  have hx' := abs_le.1 hx
  have hy' := abs_le.1 hy
  have bx' := abs_le.1 bx
  have by'' := abs_le.1 by'
  have s1 : |b + x| ≤ 39 * n + 2 := abs_le.2 ⟨by linarith, by linarith⟩
  have s1' := abs_le.1 s1
  obtain ⟨z, ez, hz⟩ := rnd_err D (x := b + x) (big_le (y := 1e10) (by linarith) (by norm_num))
  have hz2 := abs_le.1 (show |z - (b + x)| ≤ 1.2e-16 * (39 * n + 2) + 1e-30 by linarith)
  have s2 : |z + y| ≤ 77 * n + 3 := abs_le.2 ⟨by linarith, by linarith⟩
  obtain ⟨v, ev, hv⟩ := rnd_err D (x := z + y) (big_le (y := 1e10) (by linarith) (by norm_num))
  have hv2 := abs_le.1 (show |v - (z + y)| ≤ 1.2e-16 * (77 * n + 3) + 1e-30 by linarith)
  refine ⟨v, ?_, ?_⟩
  · unfold ofInt
    push_cast
    rw [ex, ey, Machine.add_fin, ez, Machine.add_fin, ev]
  · have hn0 : (0 : ℝ) ≤ n := Nat.cast_nonneg n
    exact abs_le.2 ⟨by linarith, by linarith⟩

/-- The table before it is cumulated. -/
theorem binom_entries (D : DoubleWithin M d) (hd : d ≤ 9e-16) {p : ℝ} (p0 : 0 < p) (p1 : p < 1) {n : ℕ} (hn : n ≤ 1000000) {lp lq : ℝ}
    (h1 : |lp - Real.log p| ≤ 3.5e-14) (h2 : |lq - Real.log (1 - p)| ≤ 3.5e-14) (h3 : |Real.log p| ≤ 37) (h4 : |Real.log (1 - p)| ≤ 37) :
    ∀ (k i : ℕ) (b : ℝ), i + k = n + 1 → |b - Real.log (n.choose i)| ≤ i * (2.4e-16 * n + 3.5e-14) →
    ∃ l : List ℝ, Rounded.binomialEntries M (fin lp) (fin lq) n k i (fin b) = l.map fin ∧ l.length = k ∧
      ∀ j, j < k → |l.getD j 0 - binW p n (i + j)| ≤ (2.41e-16 * n ^ 2 + 1.31e-13 * n + 2e-15) * binW p n (i + j) + 1e-30
  | 0, i, b, _, _ => ⟨[], rfl, rfl, fun j hj => by omega⟩
  | k + 1, i, b, hk, hb => by
    have hi : i ≤ n := by omega
    have hnr : (n : ℝ) ≤ 1000000 := by exact_mod_cast hn
    have hn0 : (0 : ℝ) ≤ n := Nat.cast_nonneg n
    obtain ⟨v, ev, hv⟩ := binom_arg D p0 p1 hn hi rfl hb h1 h2 h3 h4
    have hw := binW_pos p0 p1 hi
    have hl : Real.log (binW p n i) ≤ 700 := le_trans (Real.log_nonpos hw.le (binW_le p0 p1 hi)) (by norm_num)
    obtain ⟨a, ea, ha⟩ := exp_entry D hd hw hl hv (by nlinarith)
    have ha2 : |a - binW p n i| ≤ (2.41e-16 * n ^ 2 + 1.31e-13 * n + 2e-15) * binW p n i + 1e-30 := by
      refine ha.trans (add_le_add (mul_le_mul_of_nonneg_right ?_ hw.le) le_rfl)
      have : (0 : ℝ) ≤ n ^ 2 := by positivity
      linarith
    rw [Rounded.binomialEntries, ev, ea]
    rcases Nat.eq_zero_or_pos k with rfl | hk0
    · refine ⟨[a], ?_, rfl, fun j hj => ?_⟩
      · rw [Rounded.binomialEntries]; rfl
      · obtain rfl : j = 0 := by omega
        exact ha2
    · obtain ⟨b', eb', hb'⟩ := binom_step D hd hn (show i < n by omega) rfl hb
      obtain ⟨l, el, ll, hl⟩ := binom_entries D hd p0 p1 hn h1 h2 h3 h4 k (i + 1) b' (by omega) (by push_cast; exact hb')
      refine ⟨a :: l, ?_, by simp [ll], fun j hj => ?_⟩
      · rw [eb', el]; rfl
      · cases j with
        | zero => exact ha2
        | succ j =>
          have := hl j (by omega)
          rw [List.getD_cons_succ, show i + (j + 1) = i + 1 + j by ring]
          exact this

/-- Where the search ends up. -/
theorem binom_search (D : DoubleWithin M d) (hd : d ≤ 9e-16) {p : ℝ} (p0 : 2 ^ (-53 : ℤ) ≤ p) (p1 : p ≤ 1 - 2 ^ (-53 : ℤ)) {n : ℕ} (hn : n ≤ 1000000) {u : ℝ} (u0 : 0 ≤ u) (u1 : u < 1) :
    ∃ k : ℕ, (Rounded.binomial M (fin p) n).draw (fin u) = some (k : ℤ) ∧ k ≤ n ∧
      ∑ i ∈ Finset.range k, binW p n i - (6e-16 * n ^ 2 + 3e-13 * n + 7e-15) ≤ u ∧ u ≤ ∑ i ∈ Finset.range (k + 1), binW p n i + (6e-16 * n ^ 2 + 3e-13 * n + 7e-15) := by
  have h53 : (0 : ℝ) < 2 ^ (-53 : ℤ) := by positivity
  have hp0 : 0 < p := by linarith
  have hp1 : p < 1 := by linarith
  have hnr : (n : ℝ) ≤ 1000000 := by exact_mod_cast hn
  have hn0 : (0 : ℝ) ≤ n := Nat.cast_nonneg n
  have hn2 : (0 : ℝ) ≤ n ^ 2 := by positivity
  obtain ⟨a, b, ea, eb, ha, hb, la, lb⟩ := ln_prob D hd p0 p1
  obtain ⟨l, el, ll, hl⟩ := binom_entries D hd hp0 hp1 hn ha hb la lb (n + 1) 0 0 (by omega) (by simp)
  have hlen : (l.length : ℝ) = n + 1 := by rw [ll]; push_cast; ring
  obtain ⟨k, hk, kl, k1, k2⟩ := table_search D (l := l) (w := binW p n) (c := 1) (η := 2.41e-16 * n ^ 2 + 1.31e-13 * n + 2e-15)
    (θ := 2.41e-16 * n ^ 2 + 1.32e-13 * n + 3e-15) le_rfl (one_le_zpow₀ one_le_two (by norm_num)) (by rintro rfl; simp at ll) (binW_nonneg hp0 hp1 n) (by rw [ll]; exact binW_sum p n)
    (by positivity) (by nlinarith) (by rw [hlen]; linarith) (fun i hi => by
      have := hl i (by omega)
      rw [zero_add] at this
      rw [one_mul, one_mul]; exact this) u1
  rw [max_eq_left u0] at k1
  refine ⟨k, ?_, by omega, by linarith, by linarith⟩
  show (search (fin u) (Rounded.normalize M (Rounded.cumulate M (Rounded.binomialEntries M (M.ln (fin p)) (M.ln (M.sub 1 (fin p))) n (n + 1) 0 0)))).map _ = _
  rw [ea, eb, show (0 : XR) = fin 0 from by rw [zero_def], el, hk]
  rfl

end Trng.PeriodLaw
