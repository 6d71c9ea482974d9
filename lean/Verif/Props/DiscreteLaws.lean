import Verif.Proofs.TailDists

/-! C55, C56, C57, C58: hypergeometric, binomial, Poisson-type and geometric distributions (exact arithmetic). -/
namespace Trng
open Discrete XR MeasureTheory
open scoped Nat

/-! ### C55 -/

/-- What hypergeometric_dist computes: the value `x` gets a probability proportional to `C(m,x) C(n-m,m-x)`, restricted to
the correct set of values, whatever `d` is. -/
theorem C55_hypergeometric_actual {n m d : ℕ} (hm : m ≤ n) (hd : d ≤ n) :
    let w : ℤ → ℝ := fun x =>
      if max 0 ((d : ℤ) + m - n) ≤ x ∧ x ≤ min (d : ℤ) m then (m.choose x.toNat * (n - m).choose (m - x.toNat) : ℕ) else 0
    let s : ℝ := ∑ x ∈ Finset.range (m + 1), w x
    0 < s → (∀ x : ℤ, (Hypergeometric.construct n m d).pdf x = some (fin (w x / s))) ∧
      Spec.DiscreteLaw (fun u => (Hypergeometric.construct n m d).draw (fin u)) (fun x => w x / s) := by
  intro w s hs
  have hcount : hgMin n m d + hgCount n m d = min d m + 1 := by rw [hgCount, hgMin]; omega
  have hw : ∀ i, i < hgCount n m d → w ((hgMin n m d + i : ℕ) : ℤ) = hgWeight n m d i := by
    intro i hi
    have h1 : max 0 ((d : ℤ) + m - n) ≤ ((hgMin n m d + i : ℕ) : ℤ) ∧ ((hgMin n m d + i : ℕ) : ℤ) ≤ min (d : ℤ) m := by
      rw [hgMin] at *; omega
    simp only [w]
    rw [if_pos h1, Int.toNat_natCast, hgWeight]
  have hs' : s = (Finset.range (hgCount n m d)).sum (hgWeight n m d) := by
    have e : m + 1 = hgMin n m d + hgCount n m d + (m - min d m) := by omega
    simp only [s]
    rw [e, Finset.sum_range_add, Finset.sum_range_add]
    have z1 : ∑ x ∈ Finset.range (hgMin n m d), w x = 0 := Finset.sum_eq_zero fun i hi => by
      rw [Finset.mem_range, hgMin] at hi
      simp only [w]
      exact if_neg (by omega)
    have z2 : ∑ x ∈ Finset.range (m - min d m), w (hgMin n m d + hgCount n m d + x : ℕ) = 0 := Finset.sum_eq_zero fun i hi => by
      rw [Finset.mem_range] at hi
      simp only [w]
      exact if_neg (by rw [hcount]; omega)
    rw [z1, z2, zero_add, add_zero]
    exact Finset.sum_congr rfl fun i hi => hw i (Finset.mem_range.1 hi)
  rw [hs'] at hs ⊢
  have hP := hg_table hm hd hs.ne'
  have hnn : ∀ i, i < hgCount n m d → 0 ≤ hgWeight n m d i := fun i _ => Nat.cast_nonneg _
  have hlo : (Hypergeometric.construct n m d).xmin = (hgMin n m d : ℤ) := hg_lower n m d
  have hhi : (Hypergeometric.construct n m d).xmax = ((min d m : ℕ) : ℤ) := hg_upper m d
  refine ⟨fun x => ?_, ⟨fun u h0 h1 => ?_, fun k => ?_⟩⟩
  · rw [Hypergeometric.pdf, hP, hlo, hhi]
    by_cases hx : x < (hgMin n m d : ℤ) ∨ x > ((min d m : ℕ) : ℤ)
    · rw [if_pos hx]
      have : w x = 0 := by
        simp only [w]
        refine if_neg ?_
        rw [hgMin] at hx; omega
      rw [this]; simp
    · rw [if_neg hx, table_pdf _ (by omega) (by omega)]
      rw [← hw _ (by omega), show ((hgMin n m d + (x - (hgMin n m d : ℤ)).toNat : ℕ) : ℤ) = x by omega]
  · obtain ⟨k, hk, -⟩ := cdfTable_defined hnn hs h1
    rw [Hypergeometric.draw, hP, hk]; rfl
  · have hset : {u : ℝ | 0 ≤ u ∧ u < 1 ∧ (Hypergeometric.construct n m d).draw (fin u) = some k} =
        {u : ℝ | 0 ≤ u ∧ u < 1 ∧ (hgMin n m d : ℤ) ≤ k ∧
          search (fin u) ((cdfTable (hgWeight n m d) (hgCount n m d)).map fin) = some (k - (hgMin n m d : ℤ)).toNat} := by
      ext u
      simp only [Set.mem_ofPred_eq, Hypergeometric.draw, hP, hlo, Option.map_eq_some_iff]
      refine and_congr_right fun _ => and_congr_right fun _ => ⟨?_, ?_⟩
      · rintro ⟨i, hi, hk⟩
        refine ⟨by omega, ?_⟩
        rw [hi]; congr 1; omega
      · rintro ⟨h, hi⟩
        exact ⟨_, hi, by omega⟩
    rw [hset]
    by_cases hk : (hgMin n m d : ℤ) ≤ k
    · simp only [hk, true_and]
      rw [cdfTable_prob hnn hs]
      by_cases hk2 : (k - (hgMin n m d : ℤ)).toNat < hgCount n m d
      · rw [if_pos hk2, ← hw _ hk2, show ((hgMin n m d + (k - (hgMin n m d : ℤ)).toNat : ℕ) : ℤ) = k by omega]
      · rw [if_neg hk2]
        have : w k = 0 := by
          simp only [w]
          exact if_neg (by omega)
        rw [this, zero_div]
    · have : w k = 0 := by
        simp only [w]
        refine if_neg ?_
        rw [hgMin] at hk; omega
      simp only [hk, false_and, and_false]
      rw [this, zero_div, ENNReal.ofReal_zero]
      exact measure_empty

/-- C55, as far as it is true: if as many balls are drawn as there are white balls (`d = m`), pdf, cdf and samples
follow the hypergeometric distribution. -/
theorem C55_hypergeometric_partial {n m : ℕ} (hm : m ≤ n) :
    (∀ x : ℤ, (Hypergeometric.construct n m m).pdf x = some (fin (Spec.hypergeometric n m m x))) ∧
    (∀ x : ℤ, (Hypergeometric.construct n m m).cdf x = some (fin (Spec.cumulative (Spec.hypergeometric n m m) x))) ∧
    Spec.DiscreteLaw (fun u => (Hypergeometric.construct n m m).draw (fin u)) (Spec.hypergeometric n m m) := by
  have hsum := hg_sum hm
  have hpos : (0 : ℝ) < (n.choose m : ℕ) := Nat.cast_pos.2 (Nat.choose_pos hm)
  have hcount : hgMin n m m + hgCount n m m = m + 1 := by rw [hgCount, hgMin]; omega
  obtain h := C55_hypergeometric_actual hm hm
  have hw : ∀ x : ℤ, (if max 0 ((m : ℤ) + m - n) ≤ x ∧ x ≤ min (m : ℤ) m then
      ((m.choose x.toNat * (n - m).choose (m - x.toNat) : ℕ) : ℝ) else 0) = Spec.hypergeometric n m m x * (n.choose m : ℕ) := by
    intro x
    rw [Spec.hypergeometric]
    by_cases h1 : 0 ≤ x ∧ x ≤ m
    · rw [if_pos h1, div_mul_cancel₀ _ hpos.ne']
      by_cases h2 : max 0 ((m : ℤ) + m - n) ≤ x ∧ x ≤ min (m : ℤ) m
      · rw [if_pos h2]
      · rw [if_neg h2, Nat.choose_eq_zero_of_lt (show n - m < m - x.toNat by omega)]
        simp
    · rw [if_neg h1, if_neg (by omega), zero_mul]
  have hs : ∑ x ∈ Finset.range (m + 1), Spec.hypergeometric n m m x = 1 := by
    rw [show (1 : ℝ) = (n.choose m : ℕ) / (n.choose m : ℕ) from (div_self hpos.ne').symm, ← hsum, ← hcount, Finset.sum_range_add,
      Finset.sum_div]
    rw [Finset.sum_eq_zero, zero_add]
    · refine Finset.sum_congr rfl fun i hi => ?_
      rw [Finset.mem_range] at hi
      rw [Spec.hypergeometric, if_pos (by omega), Int.toNat_natCast, hsum, hgWeight]
    · intro i hi
      rw [Finset.mem_range, hgMin] at hi
      rw [Spec.hypergeometric, if_pos (by omega), Int.toNat_natCast, Nat.choose_eq_zero_of_lt (show n - m < m - i by omega)]
      simp
  simp only [hw, ← Finset.sum_mul, hs, one_mul, mul_div_assoc, div_self hpos.ne', mul_one] at h
  obtain ⟨h1, h2⟩ := h hpos
  refine ⟨h1, fun x => ?_, h2⟩
  have hlo : (Hypergeometric.construct n m m).xmin = (hgMin n m m : ℤ) := hg_lower n m m
  have hhi : (Hypergeometric.construct n m m).xmax = ((min m m : ℕ) : ℤ) := hg_upper m m
  have hzero : ∀ k : ℕ, k < hgMin n m m → Spec.hypergeometric n m m k = 0 := by
    intro k hk
    rw [hgMin] at hk
    rw [Spec.hypergeometric, if_pos (by omega), Int.toNat_natCast, Nat.choose_eq_zero_of_lt (show n - m < m - k by omega)]
    simp
  rw [Hypergeometric.cdf, hg_table hm hm (by rw [hsum]; exact hpos.ne'), hlo, hhi, Spec.cumulative]
  by_cases ha : x < (hgMin n m m : ℤ)
  · rw [if_pos ha, Finset.sum_eq_zero fun k hk => hzero k (by rw [Finset.mem_range] at hk; omega)]
    simp
  · rw [if_neg ha]
    by_cases hb : x > ((min m m : ℕ) : ℤ)
    · rw [if_pos hb]
      have e : (x + 1).toNat = m + 1 + ((x + 1).toNat - (m + 1)) := by omega
      rw [e, Finset.sum_range_add, hs, Finset.sum_eq_zero, add_zero]
      · simp
      · intro k _
        rw [Spec.hypergeometric, if_neg (by omega)]
    · rw [if_neg hb, List.getElem?_map, cdfTable_getElem? _ (by omega), Option.map_some, hsum]
      have e : (x + 1).toNat = hgMin n m m + ((x - (hgMin n m m : ℤ)).toNat + 1) := by omega
      have e2 := Finset.sum_range_add (fun k : ℕ => Spec.hypergeometric n m m k) (hgMin n m m) ((x - (hgMin n m m : ℤ)).toNat + 1)
      rw [e, e2, Finset.sum_eq_zero (fun k hk => hzero k (Finset.mem_range.1 hk)), zero_add, Finset.sum_div]
      congr 2
      refine Finset.sum_congr rfl fun i hi => ?_
      rw [Finset.mem_range] at hi
      rw [Spec.hypergeometric, if_pos (by omega), Int.toNat_natCast, hgWeight]

example : (Hypergeometric.construct 5 2 2).pdf 1 = some (fin (6 / 10)) := by
  have h := (C55_hypergeometric_partial (n := 5) (m := 2) (by norm_num)).1 1
  norm_num [Spec.hypergeometric, Nat.choose] at h ⊢
  exact h

/-- C55 is false: with one white ball among three and two drawn, the probability of no white ball is 1/3; the code says
2/3.  With three white balls among four and one drawn the code gives NaN. -/
theorem C55_hypergeometric_wrong :
    (Hypergeometric.construct 3 1 2).pdf 0 = some (fin (2 / 3)) ∧ Spec.hypergeometric 3 1 2 0 = 1 / 3 ∧
    (Hypergeometric.construct 4 3 1).pdf 0 = some nan ∧ Spec.hypergeometric 4 3 1 0 = 1 / 4 := by
  refine ⟨?_, ?_, ?_, ?_⟩
  · have h := (C55_hypergeometric_actual (n := 3) (m := 1) (d := 2) (by norm_num) (by norm_num))
    norm_num [Finset.sum_range_succ, Nat.choose] at h
    have := h.1 0
    norm_num at this
    exact this
  · norm_num [Spec.hypergeometric, Nat.choose]
  · have e : (Hypergeometric.construct 4 3 1).P = [nan, nan] := by
      have e0 := Hypergeometric.entry_eq 4 3 0 (by norm_num) (by norm_num)
      have e1 := Hypergeometric.entry_eq 4 3 1 (by norm_num) (by norm_num)
      norm_num [Nat.choose] at e0 e1
      have e2 : (fin 0 : XR) / fin 0 = nan := by simp [fin_div', XR.infSign]
      have e3 : (fin 0 : XR) + fin 0 = fin 0 := by simp
      show normalize (cumulate [Hypergeometric.entry 4 3 0, Hypergeometric.entry 4 3 1]) = _
      rw [e0, e1]
      show [fin 0 / (fin 0 + fin 0), (fin 0 + fin 0) / (fin 0 + fin 0)] = _
      rw [e3, e2]
    rw [Hypergeometric.pdf, e]
    norm_num [Hypergeometric.construct, Hypergeometric.lower, Hypergeometric.upper]
  · norm_num [Spec.hypergeometric, Nat.choose]

/-! ### C56 -/

/-- C56 for `0 < p < 1`: pdf, cdf and samples follow the binomial distribution; samples lie in `[0, n]`. -/
theorem C56_binomial_partial {p : ℝ} (h0 : 0 < p) (h1 : p < 1) (n : ℕ) :
    (∀ x : ℤ, (Binomial.construct (fin p) n).pdf x = some (fin (Spec.binomial p n x))) ∧
    (∀ x : ℤ, (Binomial.construct (fin p) n).cdf x = some (fin (Spec.cumulative (Spec.binomial p n) x))) ∧
    Spec.DiscreteLaw (fun u => (Binomial.construct (fin p) n).draw (fin u)) (Spec.binomial p n) ∧
    (∀ u : ℝ, u < 1 → ∃ k : ℤ, (Binomial.construct (fin p) n).draw (fin u) = some k ∧ 0 ≤ k ∧ k ≤ n) := by
  have hP := bin_table h0 h1 n
  have hsum := binWeight_sum p n
  have hs : 0 < (Finset.range (n + 1)).sum (binWeight p n) := by rw [hsum]; norm_num
  have hq : 0 < 1 - p := by linarith
  have hnn : ∀ i, i < n + 1 → 0 ≤ binWeight p n i := fun i _ => by rw [binWeight]; positivity
  have hb : ∀ k : ℕ, Spec.binomial p n k = binWeight p n k := fun k => by
    rw [Spec.binomial, if_pos (by omega), Int.toNat_natCast, binWeight]
  have hb0 : ∀ k : ℤ, k < 0 ∨ k > n → Spec.binomial p n k = 0 := by
    intro k hk
    rw [Spec.binomial]
    by_cases h : 0 ≤ k
    · rw [if_pos h, Nat.choose_eq_zero_of_lt (by omega)]; simp
    · rw [if_neg h]
  have hn : (Binomial.construct (fin p) n).n = n := rfl
  refine ⟨fun x => ?_, fun x => ?_, ⟨fun u hu0 hu1 => ?_, fun k => ?_⟩, fun u hu1 => ?_⟩
  · rw [Binomial.pdf, hP, hn]
    by_cases hx : x < 0 ∨ x > n
    · rw [if_pos hx, hb0 x hx]; simp
    · rw [if_neg hx]
      have := table_pdf (w := binWeight p n) (N := n + 1) 0 (x := x) (by omega) (by push_cast; omega)
      rw [sub_zero] at this
      rw [this, hsum, div_one, ← hb, Int.toNat_of_nonneg (by omega)]
  · rw [Binomial.cdf, hP, hn, Spec.cumulative]
    by_cases hx : x < 0
    · rw [if_pos hx, show (x + 1).toNat = 0 by omega]; simp
    · rw [if_neg hx]
      by_cases hx2 : x ≤ n
      · rw [if_pos hx2, List.getElem?_map, cdfTable_getElem? _ (by omega), hsum, div_one, Option.map_some, show (x + 1).toNat = x.toNat + 1 by omega]
        simp only [hb]
      · rw [if_neg hx2, show (x + 1).toNat = n + 1 + ((x + 1).toNat - (n + 1)) by omega, Finset.sum_range_add,
          Finset.sum_eq_zero (s := Finset.range ((x + 1).toNat - (n + 1))) fun k _ => hb0 _ (by omega), add_zero]
        simp only [hb]
        rw [hsum]; simp
  · obtain ⟨k, hk, -⟩ := cdfTable_defined hnn hs hu1
    rw [Binomial.draw, hP, hk]; rfl
  · by_cases hk : 0 ≤ k
    · obtain ⟨j, rfl⟩ := Int.eq_ofNat_of_zero_le hk
      have hset : {u : ℝ | 0 ≤ u ∧ u < 1 ∧ (Binomial.construct (fin p) n).draw (fin u) = some (j : ℤ)} =
          {u : ℝ | 0 ≤ u ∧ u < 1 ∧ search (fin u) ((cdfTable (binWeight p n) (n + 1)).map fin) = some j} := by
        ext u
        simp only [Set.mem_ofPred_eq, Binomial.draw, hP, Option.map_eq_some_iff, Nat.cast_inj, exists_eq_right]
      rw [hset, cdfTable_prob hnn hs, hsum, div_one]
      by_cases hj : j < n + 1
      · rw [if_pos hj, hb]
      · rw [if_neg hj, hb0 _ (by omega)]
    · rw [hb0 k (by omega), ENNReal.ofReal_zero]
      convert measure_empty (μ := (volume : Measure ℝ))
      ext u
      simp only [Set.mem_ofPred_eq, Set.mem_empty_iff_false, iff_false, Binomial.draw, Option.map_eq_some_iff]
      rintro ⟨-, -, i, -, hi⟩
      omega
  · obtain ⟨k, hk, hkn⟩ := cdfTable_defined hnn hs hu1
    exact ⟨k, by rw [Binomial.draw, hP, hk]; rfl, by omega, by omega⟩

example : (Binomial.construct (fin (1 / 4)) 3).pdf 1 = some (fin (27 / 64)) := by
  have h := (C56_binomial_partial (p := 1 / 4) (by norm_num) (by norm_num) 3).1 1
  norm_num [Spec.binomial] at h ⊢
  exact h

/-- C56 is false at the ends: for `p = 0` and for `p = 1` all probabilities are NaN and every sample is `n`, which for
`p = 0` and `n > 0` should be 0. -/
theorem C56_binomial_ends_wrong (n : ℕ) (u : XR) :
    (Binomial.construct 0 n).draw u = some (n : ℤ) ∧ (Binomial.construct 0 n).cdf 0 = some nan ∧
    (Binomial.construct 0 n).pdf 0 = some nan ∧ Spec.binomial 0 n 0 = 1 ∧
    (Binomial.construct 1 n).draw u = some (n : ℤ) ∧ (Binomial.construct 1 n).pdf 0 = some nan := by
  have h0 := bin_table_zero n
  have h1 := bin_table_one n
  refine ⟨?_, ?_, ?_, ?_, ?_, ?_⟩
  · rw [Binomial.draw, h0, search_nan]; rfl
  · rw [Binomial.cdf, h0]; simp [Binomial.construct]
  · rw [Binomial.pdf, h0]; simp [Binomial.construct]
  · simp [Spec.binomial]
  · rw [Binomial.draw, h1, search_nan]; rfl
  · rw [Binomial.pdf, h1]; simp [Binomial.construct]

/-! ### C57 -/

/-- What it means that an integer-valued sampling function of a uniform deviate inverts the distribution function of `f`:
as long as the result fits into an `int`, it is the least `k` with `u ≤ F(k)` (at `u = F(0)` it may be 1); otherwise the
behaviour is undefined. -/
def InvertsCdf (draw : ℝ → Option ℤ) (f : ℤ → ℝ) : Prop :=
  ∀ u : ℝ, 0 ≤ u → u < 1 →
    (Spec.cumulative f (2 ^ 31 - 1) < u → draw u = none) ∧
    (u ≤ Spec.cumulative f (2 ^ 31 - 1) → ∃ k : ℤ, draw u = some k ∧ 0 ≤ k ∧ k < 2 ^ 31 ∧ u ≤ Spec.cumulative f k ∧
      (0 < k → Spec.cumulative f (k - 1) ≤ u) ∧ (1 < k → Spec.cumulative f (k - 1) < u))

theorem cumulative_nat {f : ℤ → ℝ} {g : ℕ → ℝ} (h : ∀ k : ℕ, f k = g k) (k : ℕ) : Spec.cumulative f k = (Finset.range (k + 1)).sum g := by
  rw [Spec.cumulative, show ((k : ℤ) + 1).toNat = k + 1 by omega]
  exact Finset.sum_congr rfl fun i _ => h i

theorem cumulative_max {f : ℤ → ℝ} {g : ℕ → ℝ} (h : ∀ k : ℕ, f k = g k) : Spec.cumulative f (2 ^ 31 - 1) = (Finset.range (2 ^ 31)).sum g := by
  have := cumulative_nat h (2 ^ 31 - 1)
  push_cast at this
  norm_num at this ⊢
  exact this

theorem inverts_of_table {f : ℤ → ℝ} {g : ℕ → ℝ} (h : ∀ k : ℕ, f k = g k) (hg : ∀ k, 0 ≤ g k) {cdf pdf : ℤ → XR}
    (hcdf : ∀ k : ℕ, cdf k = fin ((Finset.range (k + 1)).sum g)) (hpdf : ∀ k : ℕ, pdf (k + 1 : ℕ) = fin (g (k + 1))) {c : ℕ} (hc : c < 2 ^ 31) :
    InvertsCdf (fun u => tailDraw cdf pdf ((tailTable g c).map fin) (fin u)) f := by
  intro u _ h1
  rw [cumulative_max h]
  obtain ⟨a, b⟩ := tailDraw_spec hg hcdf hpdf hc h1
  refine ⟨a, fun hu => ?_⟩
  obtain ⟨k, hk, h2, h3, h4, h5, -⟩ := b hu
  have e : k ≠ 0 → Spec.cumulative f ((k : ℤ) - 1) = (Finset.range k).sum g := by
    intro hk0
    rw [show (k : ℤ) - 1 = ((k - 1 : ℕ) : ℤ) by omega, cumulative_nat h, show k - 1 + 1 = k by omega]
  refine ⟨k, hk, by omega, by exact_mod_cast h2, by rw [cumulative_nat h]; exact h3, fun hk0 => ?_, fun hk1 => ?_⟩
  · rw [e (by omega)]; exact h4 (by omega)
  · rw [e (by omega)]; exact h5 (by omega)

theorem prob_of_inverts {f : ℤ → ℝ} {g : ℕ → ℝ} (h : ∀ k : ℕ, f k = g k) (hg : ∀ k, 0 ≤ g k) (hF : ∀ k, (Finset.range k).sum g ≤ 1)
    {draw : ℝ → Option ℤ} (hd : InvertsCdf draw f) {k : ℤ} (h0 : 0 ≤ k) (hk : k < 2 ^ 31) :
    volume {u : ℝ | 0 ≤ u ∧ u < 1 ∧ draw u = some k} = ENNReal.ofReal (f k) := by
  obtain ⟨j, rfl⟩ := Int.eq_ofNat_of_zero_le h0
  rw [h]
  refine prob_of_bounds hg hF (M := 2 ^ 31) (fun u hu0 hu1 hu => (hd u hu0 hu1).1 (by rwa [cumulative_max h])) (fun u hu0 hu1 hu => ?_) (by omega)
  obtain ⟨k, h1, h2, h3, h4, h5, -⟩ := (hd u hu0 hu1).2 (by rwa [cumulative_max h])
  obtain ⟨i, rfl⟩ := Int.eq_ofNat_of_zero_le h2
  refine ⟨i, h1, by omega, by rwa [cumulative_nat h] at h4, fun hi => ?_⟩
  have := h5 (by omega)
  rwa [show (i : ℤ) - 1 = ((i - 1 : ℕ) : ℤ) by omega, cumulative_nat h, show i - 1 + 1 = i by omega] at this

/-- poisson_dist: pdf and cdf are those of the Poisson distribution, samples invert the cdf wherever the table ends, and
have the Poisson probabilities. -/
theorem C57_poisson {mu : ℝ} (h : 0 < mu) (hm : 2 * mu ≤ 2 ^ 31 - 1) :
    (∀ x : ℤ, Poisson.pdf (fin mu) x = fin (Spec.poisson mu x)) ∧
    (∀ x : ℤ, Poisson.cdf (fin mu) x = fin (Spec.cumulative (Spec.poisson mu) x)) ∧
    InvertsCdf (fun u => Poisson.draw (fin mu) (fin u)) (Spec.poisson mu) ∧
    (∀ k : ℤ, 0 ≤ k → k < 2 ^ 31 →
      volume {u : ℝ | 0 ≤ u ∧ u < 1 ∧ Poisson.draw (fin mu) (fin u) = some k} = ENNReal.ofReal (Spec.poisson mu k)) := by
  have hg : ∀ k : ℕ, Spec.poisson mu k = poi mu k := fun k => by rw [Spec.poisson, if_pos (by omega), Int.toNat_natCast, poi]
  have hcdf : ∀ k : ℕ, Poisson.cdf (fin mu) k = fin ((Finset.range (k + 1)).sum (poi mu)) := fun k => by
    rw [Poisson.cdf, if_neg (by omega), poisson_cdf h.le]
  obtain ⟨c, -, hc, ht⟩ := poisson_table h.le hm
  have hinv : InvertsCdf (fun u => Poisson.draw (fin mu) (fin u)) (Spec.poisson mu) := by
    have := inverts_of_table hg (poi_nonneg h.le) hcdf (fun k => poisson_pdf h (k + 1)) hc
    simpa only [Poisson.draw, ht, Option.bind_some] using this
  refine ⟨fun x => ?_, fun x => ?_, hinv, fun k h0 hk => prob_of_inverts hg (poi_nonneg h.le) (poi_sum_le h.le) hinv h0 hk⟩
  · by_cases hx : 0 ≤ x
    · obtain ⟨k, rfl⟩ := Int.eq_ofNat_of_zero_le hx
      rw [poisson_pdf h, hg]
    · rw [Poisson.pdf, if_pos (by omega), Spec.poisson, if_neg hx]; simp
  · by_cases hx : 0 ≤ x
    · obtain ⟨k, rfl⟩ := Int.eq_ofNat_of_zero_le hx
      rw [hcdf, cumulative_nat hg]
    · rw [Poisson.cdf, if_pos (by omega), Spec.cumulative, show (x + 1).toNat = 0 by omega]; simp

example : ∀ k : ℤ, 0 ≤ k → k < 2 ^ 31 → volume {u : ℝ | 0 ≤ u ∧ u < 1 ∧ Poisson.draw (fin 3) (fin u) = some k} =
    ENNReal.ofReal (Spec.poisson 3 k) := (C57_poisson (mu := 3) (by norm_num) (by norm_num)).2.2.2

/-- The density of poisson_dist with mean 0 is NaN at 0; its value should be 1. -/
theorem C57_poisson_mean_zero_wrong : Poisson.pdf 0 0 = nan ∧ Spec.poisson 0 0 = 1 := by
  constructor
  · have e : Poisson.pdf 0 0 = XR.exp (-0 - lnGamma (ofInt 0 + 1) + ofInt 0 * ln 0) := by rw [Poisson.pdf, if_neg (by omega)]
    rw [e, show (0 : XR) = fin 0 by simp, ln_zero, show ofInt 0 = fin 0 by simp [ofInt], zero_mul_ninf, add_nan]
    rfl
  · simp [Spec.poisson]

/-- zero_truncated_poisson_dist, likewise; it never returns 0. -/
theorem C57_zero_truncated_poisson {mu : ℝ} (h : 0 < mu) (hm : 2 * mu ≤ 2 ^ 31 - 1) :
    (∀ x : ℤ, ZTPoisson.pdf (fin mu) x = fin (Spec.ztPoisson mu x)) ∧
    (∀ x : ℤ, ZTPoisson.cdf (fin mu) x = fin (Spec.cumulative (Spec.ztPoisson mu) x)) ∧
    InvertsCdf (fun u => ZTPoisson.draw (fin mu) (fin u)) (Spec.ztPoisson mu) ∧
    (∀ k : ℤ, 0 ≤ k → k < 2 ^ 31 →
      volume {u : ℝ | 0 ≤ u ∧ u < 1 ∧ ZTPoisson.draw (fin mu) (fin u) = some k} = ENNReal.ofReal (Spec.ztPoisson mu k)) ∧
    (∀ u : ℝ, 0 ≤ u → u < 1 → ∀ k, ZTPoisson.draw (fin mu) (fin u) = some k → 1 ≤ k) := by
  have hg : ∀ k : ℕ, Spec.ztPoisson mu k = ztp mu k := fun k => by
    rw [Spec.ztPoisson, ztp]
    by_cases hk : k = 0
    · rw [if_neg (by omega), if_pos hk]
    · rw [if_pos (by omega), if_neg hk, Spec.poisson, if_pos (by omega), Int.toNat_natCast, poi]
  obtain ⟨c, hc7, hc, ht⟩ := ztp_table h hm
  have hinv : InvertsCdf (fun u => ZTPoisson.draw (fin mu) (fin u)) (Spec.ztPoisson mu) := by
    have := inverts_of_table hg (ztp_nonneg h) (ztp_cdf h) (fun k => ztp_pdf h (k + 1)) hc
    simpa only [ZTPoisson.draw, ht, Option.bind_some] using this
  refine ⟨fun x => ?_, fun x => ?_, hinv, fun k h0 hk => prob_of_inverts hg (ztp_nonneg h) (ztp_sum_le h) hinv h0 hk, fun u h0 h1 k hk => ?_⟩
  · by_cases hx : 0 ≤ x
    · obtain ⟨k, rfl⟩ := Int.eq_ofNat_of_zero_le hx
      rw [ztp_pdf h, hg]
    · rw [ZTPoisson.pdf, if_pos (by omega), Spec.ztPoisson, if_neg (by omega)]; simp
  · by_cases hx : 0 ≤ x
    · obtain ⟨k, rfl⟩ := Int.eq_ofNat_of_zero_le hx
      rw [ztp_cdf h, cumulative_nat hg]
    · rw [ZTPoisson.cdf, if_pos (by omega), Spec.cumulative, show (x + 1).toNat = 0 by omega]; simp
  · rw [ZTPoisson.draw, ht, Option.bind_some] at hk
    obtain ⟨a, b⟩ := tailDraw_spec (ztp_nonneg h) (ztp_cdf h) (fun k => ztp_pdf h (k + 1)) hc h1
    rcases lt_or_ge ((Finset.range (2 ^ 31)).sum (ztp mu)) u with hu | hu
    · rw [a hu] at hk; cases hk
    · obtain ⟨j, hj, -, -, -, -, hz⟩ := b hu
      have : (j : ℤ) = k := Option.some.inj (hj.symm.trans hk)
      by_contra hk1
      have hu0 : u < ztp mu 0 := hz (by omega) (by omega)
      rw [ztp, if_pos rfl] at hu0
      linarith

example : Spec.ztPoisson 2 1 = 2 * Real.exp (-2) / (1 - Real.exp (-2)) := by
  norm_num [Spec.ztPoisson, Spec.poisson]
  ring

/-- negative_binomial_dist, likewise, if the table ends before the range of `int` does. -/
theorem C57_negative_binomial {p r : ℝ} (h0 : 0 < p) (h1 : p < 1) (hr : 0 < r)
    (hK : ∃ K : ℤ, K < 2 ^ 31 - 1 ∧ 1 - 1 / 4096 ≤ Spec.cumulative (Spec.negBinomial p r) K) :
    (∀ x : ℤ, NegBinomial.pdf (fin p) (fin r) x = fin (Spec.negBinomial p r x)) ∧
    (∀ x : ℤ, NegBinomial.cdf (fin p) (fin r) x = fin (Spec.cumulative (Spec.negBinomial p r) x)) ∧
    InvertsCdf (fun u => NegBinomial.draw (fin p) (fin r) (fin u)) (Spec.negBinomial p r) ∧
    (∀ k : ℤ, 0 ≤ k → k < 2 ^ 31 →
      volume {u : ℝ | 0 ≤ u ∧ u < 1 ∧ NegBinomial.draw (fin p) (fin r) (fin u) = some k} = ENNReal.ofReal (Spec.negBinomial p r k)) := by
  have hg : ∀ k : ℕ, Spec.negBinomial p r k = nbi p r k := fun k => by rw [Spec.negBinomial, if_pos (by omega), Int.toNat_natCast, nbi]
  obtain ⟨K, hK1, hK2⟩ := hK
  have hK0 : 0 ≤ K := by
    by_contra hneg
    rw [Spec.cumulative, show (K + 1).toNat = 0 by omega] at hK2
    norm_num at hK2
  obtain ⟨K', rfl⟩ := Int.eq_ofNat_of_zero_le hK0
  rw [cumulative_nat hg] at hK2
  have hnn := nbi_nonneg h0 h1.le hr
  obtain ⟨c, -, hc, ht⟩ := nbi_table h0 h1.le hr (K := K') (by omega) hK2
  have hinv : InvertsCdf (fun u => NegBinomial.draw (fin p) (fin r) (fin u)) (Spec.negBinomial p r) := by
    have := inverts_of_table hg hnn (nbi_cdf h0 h1.le hr) (fun k => nbi_pdf h0 h1 hr (k + 1)) hc
    simpa only [NegBinomial.draw, ht, Option.bind_some] using this
  refine ⟨fun x => ?_, fun x => ?_, hinv, fun k h0' hk => prob_of_inverts hg hnn (nbi_sum_le h0 h1.le hr) hinv h0' hk⟩
  · by_cases hx : 0 ≤ x
    · obtain ⟨k, rfl⟩ := Int.eq_ofNat_of_zero_le hx
      rw [nbi_pdf h0 h1 hr, hg]
    · rw [NegBinomial.pdf, if_pos (by omega), Spec.negBinomial, if_neg hx]; simp
  · by_cases hx : 0 ≤ x
    · obtain ⟨k, rfl⟩ := Int.eq_ofNat_of_zero_le hx
      rw [nbi_cdf h0 h1.le hr, cumulative_nat hg]
    · rw [NegBinomial.cdf, if_pos (by omega), Spec.cumulative, show (x + 1).toNat = 0 by omega]; simp

/-- With `r = 1` and `p = 1/2` (the geometric distribution) 12 entries are enough. -/
example : ∃ K : ℤ, K < 2 ^ 31 - 1 ∧ 1 - 1 / 4096 ≤ Spec.cumulative (Spec.negBinomial (1 / 2) 1) K := by
  refine ⟨12, by norm_num, ?_⟩
  have h : ∀ k : ℕ, Spec.negBinomial (1 / 2) 1 k = (1 / 2) ^ (k + 1) := by
    intro k
    have : Real.Gamma (1 + k) = (k ! : ℕ) := by rw [add_comm]; exact Real.Gamma_nat_eq_factorial k
    have hk : ((k ! : ℕ) : ℝ) ≠ 0 := Nat.cast_ne_zero.2 (Nat.factorial_ne_zero k)
    rw [Spec.negBinomial, if_pos (by omega), Int.toNat_natCast, this, Real.Gamma_one, Real.rpow_one]
    field_simp
    norm_num [pow_succ]
    ring
  have e := cumulative_nat (g := fun k => (1 / 2) ^ (k + 1)) h 12
  push_cast at e
  rw [e]
  norm_num [Finset.sum_range_succ]

/-! ### C58 -/

/-- geometric_dist: a deviate is mapped to the `k` with `q^(k+1) < u ≤ q^k`; if that is not an `int` the behaviour is
undefined. -/
theorem C58_geometric_draw_partial {p u : ℝ} (h0 : 0 < p) (h1 : p < 1) (hu0 : 0 < u) (hu1 : u < 1) :
    ((1 - p) ^ (2 ^ 31) < u → ∃ k : ℕ, k < 2 ^ 31 ∧ (Geometric.construct (fin p)).draw (fin u) = some (k : ℤ) ∧
      (1 - p) ^ (k + 1) < u ∧ u ≤ (1 - p) ^ k) ∧
    (u ≤ (1 - p) ^ (2 ^ 31) → (Geometric.construct (fin p)).draw (fin u) = none) := by
  have hq : 0 < 1 - p := by linarith
  have hlq : Real.log (1 - p) < 0 := Real.log_neg hq (by linarith)
  have hlu : Real.log u < 0 := Real.log_neg hu0 hu1
  have hd : (Geometric.construct (fin p)).draw (fin u) = (fin (Real.log u / Real.log (1 - p))).toInt := by
    rw [Geometric.draw, Geometric.construct, ofNat_fin, Nat.cast_one, fin_sub, ln_fin hq, ln_fin hu0, fin_div hlq.ne, fin_mul, mul_one_div]
  have hpos : 0 ≤ Real.log u / Real.log (1 - p) := div_nonneg_of_nonpos hlu.le hlq.le
  have hle : ∀ k : ℕ, (k : ℝ) ≤ Real.log u / Real.log (1 - p) ↔ u ≤ (1 - p) ^ k := by
    intro k
    rw [le_div_iff_of_neg hlq, ← Real.log_pow, Real.log_le_log_iff hu0 (pow_pos hq k)]
  have hfl : ∀ k : ℕ, (k : ℤ) ≤ ⌊Real.log u / Real.log (1 - p)⌋ ↔ u ≤ (1 - p) ^ k := by
    intro k
    rw [Int.le_floor, ← hle k, Int.cast_natCast]
  have hfl0 : 0 ≤ ⌊Real.log u / Real.log (1 - p)⌋ := Int.floor_nonneg.2 hpos
  rw [hd, toInt, if_pos hpos]
  constructor
  · intro h
    have h2 : ⌊Real.log u / Real.log (1 - p)⌋ < 2 ^ 31 := by
      by_contra hc
      exact absurd ((hfl (2 ^ 31)).1 (by push_cast; omega)) (not_le.2 h)
    obtain ⟨k, hk⟩ := Int.eq_ofNat_of_zero_le hfl0
    refine ⟨k, by omega, ?_, ?_, ?_⟩
    · rw [hk]
      exact if_pos (by omega)
    · rw [← not_le, ← hfl]; omega
    · rw [← hfl]; omega
  · intro h
    have := (hfl (2 ^ 31)).2 h
    push_cast at this
    exact if_neg (by omega)

/-- Its probabilities, pdf and cdf. -/
theorem C58_geometric_law {p : ℝ} (h0 : 0 < p) (h1 : p < 1) :
    (∀ k : ℤ, 0 ≤ k → k < 2 ^ 31 → volume {u : ℝ | 0 < u ∧ u < 1 ∧ (Geometric.construct (fin p)).draw (fin u) = some k} =
      ENNReal.ofReal (Spec.geometric p k)) ∧
    (∀ x : ℤ, (Geometric.construct (fin p)).pdf x = fin (Spec.geometric p x)) ∧
    (∀ x : ℤ, (Geometric.construct (fin p)).cdf x = fin (Spec.cumulative (Spec.geometric p) x)) := by
  have hq : 0 < 1 - p := by linarith
  have hq1 : 1 - p ≤ 1 := by linarith
  have eq1 : (1 : XR) - fin p = fin (1 - p) := by simp
  refine ⟨fun k hk0 hk => ?_, fun x => ?_, fun x => ?_⟩
  · obtain ⟨j, rfl⟩ := Int.eq_ofNat_of_zero_le hk0
    rw [Spec.geometric, if_pos hk0, Int.toNat_natCast, show p * (1 - p) ^ j = (1 - p) ^ j - (1 - p) ^ (j + 1) by ring]
    refine volume_between (fun u hu => ?_) (fun u hu => ?_)
    · have hu0 : 0 < u := (pow_pos hq _).trans hu.1
      have hu1 : u < 1 := lt_of_lt_of_le hu.2 (pow_le_one₀ hq.le hq1)
      obtain ⟨i, -, hi, hi1, hi2⟩ := (C58_geometric_draw_partial h0 h1 hu0 hu1).1
        (lt_of_le_of_lt (pow_le_pow_of_le_one hq.le hq1 (by omega)) hu.1)
      refine ⟨hu0, hu1, ?_⟩
      rw [hi]
      rcases Nat.lt_trichotomy i j with h | h | h
      · exact absurd ((hu.2.le).trans (pow_le_pow_of_le_one hq.le hq1 (show i + 1 ≤ j by omega))) (not_le.2 hi1)
      · rw [h]
      · exact absurd (hi2.trans (pow_le_pow_of_le_one hq.le hq1 (show j + 1 ≤ i by omega))) (not_le.2 hu.1)
    · obtain ⟨hu0, hu1, hu⟩ := hu
      obtain ⟨a, b⟩ := C58_geometric_draw_partial h0 h1 hu0 hu1
      rcases lt_or_ge ((1 - p) ^ (2 ^ 31)) u with h | h
      · obtain ⟨i, -, hi, hi1, hi2⟩ := a h
        have : i = j := by exact_mod_cast Option.some.inj (hi.symm.trans hu)
        subst this
        exact ⟨hi1.le, hi2⟩
      · rw [b h] at hu; cases hu
  · by_cases hx : 0 ≤ x
    · obtain ⟨k, rfl⟩ := Int.eq_ofNat_of_zero_le hx
      rw [Geometric.pdf, if_neg (by omega), Geometric.construct, eq1, ofInt, pow_fin hq, fin_mul, Spec.geometric, if_pos hx, Int.toNat_natCast,
        Int.cast_natCast, Real.rpow_natCast]
    · rw [Geometric.pdf, if_pos (by omega), Spec.geometric, if_neg hx]; simp
  · have hsum : ∀ n : ℕ, ∑ k ∈ Finset.range n, Spec.geometric p k = 1 - (1 - p) ^ n := by
      intro n
      induction n with
      | zero => simp
      | succ n ih => rw [Finset.sum_range_succ, ih, Spec.geometric, if_pos (by omega), Int.toNat_natCast]; ring
    rw [Spec.cumulative, hsum]
    by_cases hx : 0 ≤ x
    · obtain ⟨k, rfl⟩ := Int.eq_ofNat_of_zero_le hx
      rw [Geometric.cdf, if_neg (by omega), Geometric.construct, eq1, ofInt, pow_fin hq, ofNat_fin, Nat.cast_one, fin_sub,
        show ((k : ℤ) + 1).toNat = k + 1 by omega]
      congr 2
      rw [show (((k : ℤ) + 1 : ℤ) : ℝ) = ((k + 1 : ℕ) : ℝ) by push_cast; rfl, Real.rpow_natCast]
    · rw [Geometric.cdf, if_pos (by omega), show (x + 1).toNat = 0 by omega]; simp

/-- C58 without the restriction is false: for `p = 10⁻¹⁰` already the median is not an `int`. -/
theorem C58_geometric_overflow_wrong : (Geometric.construct (fin (1 / 10 ^ 10))).draw (fin (1 / 2)) = none := by
  refine (C58_geometric_draw_partial (by norm_num) (by norm_num) (by norm_num) (by norm_num)).2 ?_
  have := one_add_mul_le_pow (a := -(1 / 10 ^ 10 : ℝ)) (by norm_num) (2 ^ 31)
  rw [← sub_eq_add_neg] at this
  refine le_trans ?_ this
  norm_num

example : ∃ k : ℕ, k < 2 ^ 31 ∧ (Geometric.construct (fin (1 / 2))).draw (fin (1 / 3)) = some (k : ℤ) ∧
    (1 - 1 / 2 : ℝ) ^ (k + 1) < 1 / 3 ∧ (1 / 3 : ℝ) ≤ (1 - 1 / 2) ^ k := by
  refine (C58_geometric_draw_partial (p := 1 / 2) (u := 1 / 3) (by norm_num) (by norm_num) (by norm_num) (by norm_num)).1 ?_
  have h : (1 - 1 / 2 : ℝ) ^ (2 ^ 31) ≤ (1 - 1 / 2) ^ 2 := pow_le_pow_of_le_one (by norm_num) (by norm_num) (by norm_num)
  refine lt_of_le_of_lt h ?_
  norm_num

end Trng
