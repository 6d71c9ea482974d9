import Verif.Proofs.Table
import Verif.Spec.Discrete
import Mathlib.Data.Nat.Choose.Vandermonde

/-! Proofs for hypergeometric_dist and binomial_dist. -/
namespace Trng
open Discrete XR MeasureTheory
open scoped Nat

/-! ### Logarithms of binomial coefficients -/

theorem lnGamma_succ (a : ℕ) : lnGamma (fin ((a : ℝ) + 1)) = fin (Real.log (a ! : ℕ)) := by
  rw [lnGamma, if_neg]
  · rw [Real.Gamma_nat_eq_factorial, abs_of_nonneg (Nat.cast_nonneg _)]
  · rintro ⟨n, hn⟩
    have h1 : (0 : ℝ) ≤ n := Nat.cast_nonneg n
    have h2 : (0 : ℝ) ≤ a := Nat.cast_nonneg a
    linarith

theorem lnBinomial_le {a b : ℕ} (h : b ≤ a) : lnBinomial (ofInt a) (ofInt b) = fin (Real.log (a.choose b : ℕ)) := by
  have ea : (ofInt a : XR) + 1 = fin ((a : ℝ) + 1) := by simp [ofInt]
  have eb : (ofInt b : XR) + 1 = fin ((b : ℝ) + 1) := by simp [ofInt]
  have ec : (ofInt a : XR) - ofInt b + 1 = fin (((a - b : ℕ) : ℝ) + 1) := by simp [ofInt, Nat.cast_sub h]
  rw [lnBinomial, ea, eb, ec, lnGamma_succ, lnGamma_succ, lnGamma_succ, fin_sub, fin_sub]
  congr 1
  have hb : ((b ! : ℕ) : ℝ) ≠ 0 := Nat.cast_ne_zero.2 (Nat.factorial_ne_zero b)
  have hc : (((a - b)! : ℕ) : ℝ) ≠ 0 := Nat.cast_ne_zero.2 (Nat.factorial_ne_zero _)
  have hab : ((a.choose b : ℕ) : ℝ) ≠ 0 := Nat.cast_ne_zero.2 (Nat.choose_pos h).ne'
  have e := Nat.choose_mul_factorial_mul_factorial h
  rw [← e]
  push_cast
  rw [Real.log_mul (mul_ne_zero hab hb) hc, Real.log_mul hab hb]
  ring

theorem lnBinomial_gt {a b : ℕ} (h : a < b) : lnBinomial (ofInt a) (ofInt b) = ninf := by
  have ea : (ofInt a : XR) + 1 = fin ((a : ℝ) + 1) := by simp [ofInt]
  have eb : (ofInt b : XR) + 1 = fin ((b : ℝ) + 1) := by simp [ofInt]
  have ec : (ofInt a : XR) - ofInt b + 1 = fin (-((b - a - 1 : ℕ) : ℝ)) := by
    have : ((b - a - 1 : ℕ) : ℝ) = b - a - 1 := by
      rw [Nat.sub_sub, Nat.cast_sub (by omega)]; push_cast; ring
    rw [this]
    simp only [ofInt, fin_sub, ofNat_fin, fin_add, Int.cast_natCast, Nat.cast_one]
    congr 1; ring
  rw [lnBinomial, ea, eb, ec, lnGamma_succ, lnGamma_succ, fin_sub, lnGamma, if_pos ⟨_, rfl⟩]
  rfl

/-! ### hypergeometric_dist -/

theorem Hypergeometric.entry_eq (n m x : ℕ) (hm : m ≤ n) (hx : x ≤ m) :
    Hypergeometric.entry n m x = fin (m.choose x * (n - m).choose (m - x) : ℕ) := by
  have e1 : ((n : ℤ) - m) = ((n - m : ℕ) : ℤ) := by omega
  have e2 : ((m : ℤ) - x) = ((m - x : ℕ) : ℤ) := by omega
  rw [entry, e1, e2, lnBinomial_le hx]
  have h1 : (0 : ℝ) < (m.choose x : ℕ) := Nat.cast_pos.2 (Nat.choose_pos hx)
  rcases Nat.lt_or_ge (n - m) (m - x) with h | h
  · rw [lnBinomial_gt h, Nat.choose_eq_zero_of_lt h]
    show XR.exp ninf = _
    simp [XR.exp]
  · rw [lnBinomial_le h, fin_add, exp_fin, Real.exp_add, Real.exp_log h1, Real.exp_log (Nat.cast_pos.2 (Nat.choose_pos h))]
    push_cast; rfl

/-- The smallest value. -/
def hgMin (n m d : ℕ) : ℕ := d + m - n
/-- The number of values. -/
def hgCount (n m d : ℕ) : ℕ := min d m + 1 - hgMin n m d
/-- The weight the code gives to the `i`-th value. -/
noncomputable def hgWeight (n m d i : ℕ) : ℝ := (m.choose (hgMin n m d + i) * (n - m).choose (m - (hgMin n m d + i)) : ℕ)

theorem hg_lower (n m d : ℕ) : Hypergeometric.lower n m d = (hgMin n m d : ℤ) := by
  rw [Hypergeometric.lower, hgMin]; omega

theorem hg_upper (m d : ℕ) : Hypergeometric.upper m d = (min d m : ℕ) := by
  rw [Hypergeometric.upper]; omega

theorem hg_table {n m d : ℕ} (hm : m ≤ n) (hd : d ≤ n) (hs : (Finset.range (hgCount n m d)).sum (hgWeight n m d) ≠ 0) :
    (Hypergeometric.construct n m d).P = (cdfTable (hgWeight n m d) (hgCount n m d)).map fin := by
  rw [← table_construct _ (by rw [hgCount, hgMin]; omega) hs]
  show normalize _ = _
  congr 2
  rw [hg_lower, hg_upper]
  rw [show (((min d m : ℕ) : ℤ) + 1 - (hgMin n m d : ℤ)).toNat = hgCount n m d by rw [hgCount]; omega]
  refine List.map_congr_left fun i hi => ?_
  rw [List.mem_range, hgCount] at hi
  rw [show ((hgMin n m d : ℕ) : ℤ) + (i : ℤ) = ((hgMin n m d + i : ℕ) : ℤ) by push_cast; rfl]
  rw [Hypergeometric.entry_eq n m _ hm (by omega)]
  rfl

/-- Vandermonde's identity in the form needed. -/
theorem hg_sum {n m : ℕ} (hm : m ≤ n) : (Finset.range (hgCount n m m)).sum (hgWeight n m m) = (n.choose m : ℕ) := by
  have e := Nat.add_choose_eq m (n - m) m
  rw [show m + (n - m) = n by omega] at e
  rw [e, Finset.Nat.sum_antidiagonal_eq_sum_range_succ_mk]
  push_cast
  have h : m + 1 = hgMin n m m + hgCount n m m := by rw [hgCount, hgMin]; omega
  rw [Nat.succ_eq_add_one, h, Finset.sum_range_add]
  have hz : ∑ x ∈ Finset.range (hgMin n m m), ((m.choose x : ℕ) : ℝ) * ((n - m).choose (m - x) : ℕ) = 0 := by
    refine Finset.sum_eq_zero fun i hi => ?_
    rw [Finset.mem_range, hgMin] at hi
    rw [Nat.choose_eq_zero_of_lt (show n - m < m - i by omega)]
    simp
  rw [hz, zero_add]
  refine Finset.sum_congr rfl fun i _ => ?_
  rw [hgWeight]
  push_cast; rfl

/-! ### Tables of the form both classes use -/

section
variable {w : ℕ → ℝ} {N : ℕ} (a : ℤ)

theorem table_pdf {x : ℤ} (h1 : a ≤ x) (h2 : x < a + N) :
    (if x - a = 0 then ((cdfTable w N).map fin)[0]?
      else ((cdfTable w N).map fin)[(x - a).toNat]?.bind fun p => ((cdfTable w N).map fin)[(x - a - 1).toNat]?.map fun q => p - q) =
    some (fin (w (x - a).toNat / (Finset.range N).sum w)) := by
  obtain ⟨k, hk⟩ : ∃ k : ℕ, x - a = k := ⟨(x - a).toNat, by omega⟩
  rw [hk]
  simp only [Int.toNat_natCast]
  by_cases h0 : (k : ℤ) = 0
  · rw [if_pos h0]
    have : k = 0 := by omega
    subst this
    rw [List.getElem?_map, cdfTable_getElem? w (by omega)]
    simp
  · rw [if_neg h0, List.getElem?_map, List.getElem?_map, cdfTable_getElem? w (by omega), show ((k : ℤ) - 1).toNat = k - 1 by omega,
      cdfTable_getElem? w (by omega)]
    simp only [Option.map_some, Option.bind_some, fin_sub]
    rw [Finset.sum_range_succ, show k - 1 + 1 = k by omega, add_div, add_sub_cancel_left]
end

/-! ### binomial_dist -/

/-- The weights of the binomial distribution. -/
noncomputable def binWeight (p : ℝ) (n i : ℕ) : ℝ := (n.choose i : ℕ) * p ^ i * (1 - p) ^ (n - i)

theorem binWeight_sum (p : ℝ) (n : ℕ) : (Finset.range (n + 1)).sum (binWeight p n) = 1 := by
  have := add_pow p (1 - p) n
  rw [add_sub_cancel, one_pow] at this
  rw [this]
  refine Finset.sum_congr rfl fun i _ => ?_
  rw [binWeight]; ring

theorem bin_entries {p : ℝ} (h0 : 0 < p) (h1 : p < 1) (n : ℕ) : ∀ (k i : ℕ) (b : XR), k + i = n + 1 →
    (k ≠ 0 → b = fin (Real.log (n.choose i : ℕ))) →
    Binomial.entries (fin (Real.log p)) (fin (Real.log (1 - p))) n k i b = (List.range' i k).map fun j => fin (binWeight p n j) := by
  intro k
  induction k with
  | zero => intro i b _ _; rfl
  | succ k ih =>
    intro i b hk hb
    have hi : i ≤ n := by omega
    rw [Binomial.entries, hb (by omega), List.range'_succ, List.map_cons]
    have hc : (0 : ℝ) < (n.choose i : ℕ) := Nat.cast_pos.2 (Nat.choose_pos hi)
    have hq : 0 < 1 - p := by linarith
    congr 1
    · rw [ofInt, ofInt, fin_mul, fin_mul, fin_add, fin_add, exp_fin, Real.exp_add, Real.exp_add, Real.exp_log hc, binWeight]
      congr 2
      · rw [Int.cast_natCast, ← Real.log_pow, Real.exp_log (pow_pos h0 _)]
      · rw [show ((n : ℤ) - i) = ((n - i : ℕ) : ℤ) by omega, Int.cast_natCast, ← Real.log_pow, Real.exp_log (pow_pos hq _)]
    · refine ih (i + 1) _ (by omega) fun hk0 => ?_
      have hin : i < n := by omega
      rw [ofInt, ofInt, show ((n : ℤ) - i) = ((n - i : ℕ) : ℤ) by omega, show ((i : ℤ) + 1) = ((i + 1 : ℕ) : ℤ) by omega, Int.cast_natCast,
        Int.cast_natCast]
      have hni : (0 : ℝ) < ((n - i : ℕ) : ℝ) := Nat.cast_pos.2 (by omega)
      have hi1 : (0 : ℝ) < ((i + 1 : ℕ) : ℝ) := Nat.cast_pos.2 (by omega)
      have hc' : (0 : ℝ) < (n.choose (i + 1) : ℕ) := Nat.cast_pos.2 (Nat.choose_pos hin)
      rw [ln_fin hni, ln_fin hi1, fin_add, fin_sub, ← Real.log_mul hc.ne' hni.ne', ← Nat.cast_mul, ← Nat.choose_succ_right_eq, Nat.cast_mul,
        Real.log_mul hc'.ne' hi1.ne']
      simp

theorem bin_table {p : ℝ} (h0 : 0 < p) (h1 : p < 1) (n : ℕ) :
    (Binomial.construct (fin p) n).P = (cdfTable (binWeight p n) (n + 1)).map fin := by
  rw [← table_construct _ (show 0 < n + 1 by omega) (by rw [binWeight_sum]; norm_num)]
  simp only [Binomial.construct]
  have hz : (0 : XR) = fin (Real.log ((n.choose 0 : ℕ) : ℝ)) := by simp
  have h1' : (1 : XR) - fin p = fin (1 - p) := by simp
  rw [h1', ln_fin h0, ln_fin (by linarith), bin_entries h0 h1 n (n + 1) 0 _ (by omega) (fun _ => hz), List.range_eq_range']

/-- A table of NaN only. -/
theorem search_nan (x : XR) (N : ℕ) : search x (List.replicate (N + 1) nan) = some N := by
  have hle : ∀ x : XR, ¬ x ≤ nan := fun x h => by cases x <;> exact h
  have hlt : ∀ x : XR, ¬ x < nan := fun x h => by cases x <;> exact h
  have loop : ∀ fuel i1, i1 ≤ N → N - i1 < fuel → searchLoop x (List.replicate (N + 1) nan) fuel i1 N = some N := by
    intro fuel
    induction fuel with
    | zero => intro i1 _ h; omega
    | succ f ih =>
      intro i1 h1 hf
      rw [searchLoop]
      by_cases h : N - i1 > 1
      · rw [if_pos h, List.getElem?_replicate, if_pos (by omega), Option.bind_some, if_neg (hle x)]
        exact ih _ (by omega) (by omega)
      · rw [if_neg h]
  rw [search, List.getElem?_replicate, if_pos (by omega), Option.bind_some, if_neg (hlt x), List.length_replicate]
  exact loop _ _ (by omega) (by omega)

theorem add_nan (x : XR) : x + nan = nan := by cases x <;> rfl
theorem nan_add (x : XR) : nan + x = nan := rfl
theorem div_nan (x : XR) : x / nan = nan := by cases x <;> rfl

theorem cumulateFrom_nan (l : List XR) : cumulateFrom nan l = List.replicate l.length nan := by
  induction l with
  | nil => rfl
  | cons p l ih => rw [cumulateFrom, add_nan, ih]; rfl

theorem cumulateFrom_length (l : List XR) : ∀ a, (cumulateFrom a l).length = l.length := by
  induction l with
  | nil => intro a; rfl
  | cons p l ih => intro a; rw [cumulateFrom, List.length_cons, ih]; rfl

theorem cumulate_length (l : List XR) : (cumulate l).length = l.length := by
  cases l with
  | nil => rfl
  | cons p l => rw [cumulate, List.length_cons, cumulateFrom_length]; rfl

theorem entries_length (a b : XR) (n k : ℕ) : ∀ i c, (Binomial.entries a b n k i c).length = k := by
  induction k with
  | zero => intro i c; rfl
  | succ k ih => intro i c; rw [Binomial.entries, List.length_cons, ih]

theorem normalize_nan (l : List XR) (h : l.getLast? = some nan) : normalize l = List.replicate l.length nan := by
  rw [normalize, h]
  refine List.eq_replicate_iff.2 ⟨by simp, fun b hb => ?_⟩
  rw [List.mem_map] at hb
  obtain ⟨x, -, rfl⟩ := hb
  exact div_nan x

theorem cumulateFrom_last (l : List XR) : ∀ a, l.getLast? = some nan → (cumulateFrom a l).getLast? = some nan := by
  induction l with
  | nil => intro a h; cases h
  | cons p l ih =>
    intro a h
    rw [cumulateFrom]
    cases l with
    | nil =>
      simp only [List.getLast?_singleton] at h
      rw [Option.some.inj h]; rfl
    | cons q l =>
      rw [List.getLast?_cons_cons] at h
      have := ih (p + a) h
      rw [cumulateFrom] at this ⊢
      rw [List.getLast?_cons_cons]
      exact this

theorem cumulate_last (l : List XR) (h : l.getLast? = some nan) : (cumulate l).getLast? = some nan := by
  cases l with
  | nil => cases h
  | cons p l =>
    cases l with
    | nil => exact h
    | cons q l =>
      rw [List.getLast?_cons_cons] at h
      rw [cumulate]
      have := cumulateFrom_last _ p h
      rw [cumulateFrom] at this ⊢
      rw [List.getLast?_cons_cons]
      exact this

theorem entries_last (a b : XR) (n : ℕ) (hb : fin 0 * b = nan) : ∀ k i c, k + i = n → (Binomial.entries a b n (k + 1) i c).getLast? = some nan := by
  intro k
  induction k with
  | zero =>
    intro i c h
    have : i = n := by omega
    subst this
    rw [Binomial.entries, Binomial.entries, sub_self, List.getLast?_singleton]
    rw [show ofInt 0 = fin 0 by simp [ofInt], hb, add_nan]
    rfl
  | succ k ih =>
    intro i c h
    rw [Binomial.entries]
    have := ih (i + 1) (c + ln (ofInt ((n : ℤ) - i)) - ln (ofInt ((i : ℤ) + 1))) (by omega)
    cases hl : Binomial.entries a b n (k + 1) (i + 1) (c + ln (ofInt ((n : ℤ) - i)) - ln (ofInt ((i : ℤ) + 1))) with
    | nil => rw [hl] at this; cases this
    | cons y l => rw [List.getLast?_cons_cons, ← hl]; exact this

theorem zero_mul_ninf : fin 0 * ninf = nan := by
  show infSign (-0) = nan
  simp [infSign]

theorem ln_zero : ln (fin 0) = ninf := by simp [ln]

theorem bin_table_one (n : ℕ) : (Binomial.construct 1 n).P = List.replicate (n + 1) nan := by
  simp only [Binomial.construct]
  have e : ln ((1 : XR) - 1) = ninf := by
    rw [show (1 : XR) - 1 = fin 0 by simp, ln_zero]
  rw [e, normalize_nan _ (cumulate_last _ (entries_last _ _ n zero_mul_ninf n 0 _ (by omega))), cumulate_length, entries_length]

theorem bin_table_zero (n : ℕ) : (Binomial.construct 0 n).P = List.replicate (n + 1) nan := by
  simp only [Binomial.construct]
  have e : ln (0 : XR) = ninf := by rw [show (0 : XR) = fin 0 by simp, ln_zero]
  rw [e, Binomial.entries, cumulate]
  have e1 : XR.exp (0 + ofInt ((0 : ℕ) : ℤ) * ninf + ofInt ((n : ℤ) - ((0 : ℕ) : ℤ)) * ln (1 - 0)) = nan := by
    rw [show ofInt ((0 : ℕ) : ℤ) = fin 0 by simp [ofInt], zero_mul_ninf, add_nan, nan_add]
    rfl
  rw [e1, cumulateFrom_nan, entries_length, ← List.replicate_succ, normalize_nan _ (show (List.replicate (n + 1) nan).getLast? = some nan by simp [List.getLast?_replicate]), List.length_replicate]

end Trng
