import Verif.Proofs.RoundedBinomial

/-! The table of hypergeometric_dist in rounded arithmetic. -/
namespace Trng.PeriodLaw
open XR Spec Inverse Trng.Discrete
open scoped Nat

variable {M : Machine} {d : ℝ}

theorem rnd_nat (D : DoubleWithin M d) {k : ℕ} (h : k < 2 ^ 53) : M.rnd k = fin k := by
  rw [D.rnd]
  exact Rounded.dbl_nat h

theorem log_fact_bounds {k n : ℕ} (h : k ≤ n) (hn : n ≤ 900) : 0 ≤ Real.log (k ! : ℕ) ∧ Real.log (k ! : ℕ) ≤ 7 * n := by
  have h1 : 1 ≤ k ! := Nat.factorial_pos k
  refine ⟨Real.log_nonneg (by exact_mod_cast h1), ?_⟩
  rcases Nat.eq_zero_or_pos k with rfl | hk
  · simp
  have h2 : ((k ! : ℕ) : ℝ) ≤ (k : ℝ) ^ k := by exact_mod_cast Nat.factorial_le_pow k
  have hk0 : (0 : ℝ) < k := by exact_mod_cast hk
  have h3 := Real.log_le_log (by exact_mod_cast h1) h2
  rw [Real.log_pow] at h3
  have h4 : Real.log k ≤ 7 := by
    rw [Real.log_le_iff_le_exp hk0]
    have : (2.7 : ℝ) ^ 7 ≤ Real.exp 7 := by
      rw [show (7 : ℝ) = (7 : ℕ) * 1 by norm_num, Real.exp_nat_mul]
      exact pow_le_pow_left₀ (by norm_num) (by linarith [Real.exp_one_gt_d9]) _
    have h5 : (k : ℝ) ≤ 900 := by exact_mod_cast h.trans hn
    exact h5.trans (le_trans (by norm_num) this)
  have h6 : (k : ℝ) ≤ n := by exact_mod_cast h
  have h7 : (k : ℝ) * Real.log k ≤ k * 7 := mul_le_mul_of_nonneg_left h4 hk0.le
  linarith

theorem log_choose_eq {a b : ℕ} (h : b ≤ a) : Real.log (a.choose b) = Real.log (a ! : ℕ) - Real.log (b ! : ℕ) - Real.log ((a - b)! : ℕ) := by
  have h1 : (0 : ℝ) < a.choose b := by exact_mod_cast Nat.choose_pos h
  have h2 : (0 : ℝ) < (b ! : ℕ) := by exact_mod_cast Nat.factorial_pos b
  have h3 : (0 : ℝ) < ((a - b)! : ℕ) := by exact_mod_cast Nat.factorial_pos (a - b)
  rw [← Nat.choose_mul_factorial_mul_factorial h]
  push_cast
  rw [Real.log_mul (by positivity) h3.ne', Real.log_mul h1.ne' h2.ne']
  ring

/-- The logarithm of a binomial coefficient. -/
theorem lnBinomial_near (D : DoubleWithin M d) (hd : d ≤ 9e-16) (hg : ∀ k : ℕ, k ≤ 900 → Close d (M.lnGamma (fin (k + 1))) (Real.log (k ! : ℕ)))
    {n a b : ℕ} (hb : b ≤ a) (ha : a ≤ n) (hn : n ≤ 900) :
    ∃ v, Rounded.lnBinomial M (ofInt a) (ofInt b) = fin v ∧ |v - Real.log (a.choose b)| ≤ 2.1e-14 * n + 1e-28 := by
  have hnr : (n : ℝ) ≤ 900 := by exact_mod_cast hn
  have hn0 : (0 : ℝ) ≤ n := Nat.cast_nonneg n
  have ht := tiny_le
  have gam : ∀ k : ℕ, k ≤ n → ∃ g, M.lnGamma (fin ((k : ℝ) + 1)) = fin g ∧ |g - Real.log (k ! : ℕ)| ≤ 6.3e-15 * n + 1e-30 ∧ 0 ≤ Real.log (k ! : ℕ) ∧ Real.log (k ! : ℕ) ≤ 7 * n := fun k hk => by
    obtain ⟨l0, l1⟩ := log_fact_bounds hk hn
    obtain ⟨g, eg, hg'⟩ := hg k (by omega)
    change _ ≤ _ + tiny at hg'
    rw [abs_of_nonneg l0] at hg'
    refine ⟨g, eg, ?_, l0, l1⟩
    have : d * Real.log (k ! : ℕ) ≤ 9e-16 * (7 * n) := mul_le_mul hd l1 l0 (by norm_num)
    linarith
  obtain ⟨g1, e1, a1, b1, c1⟩ := gam a ha
  obtain ⟨g2, e2, a2, b2, c2⟩ := gam b (by omega)
  obtain ⟨g3, e3, a3, b3, c3⟩ := gam (a - b) (by omega)
  have a1' := abs_le.1 a1
  have a2' := abs_le.1 a2
  have a3' := abs_le.1 a3
  have s1 : |g1 - g2| ≤ 7.1 * n + 1e-29 := abs_le.2 ⟨by linarith, by linarith⟩
  obtain ⟨x, ex, hx⟩ := rnd_err D (x := g1 - g2) (big_le (y := 1e10) (by linarith) (by norm_num))
  have hx' := abs_le.1 (show |x - (g1 - g2)| ≤ 1.2e-16 * (7.1 * n + 1e-29) + 1e-30 by linarith)
  have hc := log_choose_eq hb
  obtain ⟨k0, k1⟩ := log_choose_bounds hb
  have har : (a : ℝ) ≤ n := by exact_mod_cast ha
  have s2 : |x - g3| ≤ 7.1 * n + 1e-28 := abs_le.2 ⟨by linarith, by linarith⟩
  obtain ⟨y, ey, hy⟩ := rnd_err D (x := x - g3) (big_le (y := 1e10) (by linarith) (by norm_num))
  have hy' := abs_le.1 (show |y - (x - g3)| ≤ 1.2e-16 * (7.1 * n + 1e-28) + 1e-30 by linarith)
  refine ⟨y, ?_, by rw [hc]; exact abs_le.2 ⟨by linarith, by linarith⟩⟩
  have one : ∀ k : ℕ, k ≤ 900 → M.add (fin (k : ℝ)) 1 = fin ((k : ℝ) + 1) := fun k hk => by
    rw [one_def, Machine.add_fin]
    have := rnd_nat D (k := k + 1) (by omega)
    push_cast at this
    exact this
  have sub : M.sub (fin (a : ℝ)) (fin (b : ℝ)) = fin ((a - b : ℕ) : ℝ) := by
    rw [Machine.sub_fin, ← Nat.cast_sub hb]
    exact rnd_nat D (by omega)
  unfold Rounded.lnBinomial ofInt
  rw [Int.cast_natCast, Int.cast_natCast, sub, one a (by omega), one b (by omega), one (a - b) (by omega), e1, e2, e3, Machine.sub_fin, ex, Machine.sub_fin, ey]

/-- An entry of the table. -/
theorem hyper_entry (D : DoubleWithin M d) (hd : d ≤ 9e-16) (hg : ∀ k : ℕ, k ≤ 900 → Close d (M.lnGamma (fin (k + 1))) (Real.log (k ! : ℕ)))
    {n m x : ℕ} (hm : m ≤ n) (hn : n ≤ 900) (hx : x ≤ m) (hx' : m - x ≤ n - m) :
    ∃ a, Rounded.hyperEntry M n m x = fin a ∧
      |a - (m.choose x * (n - m).choose (m - x) : ℕ)| ≤ (4.31e-14 * n + 2e-15) * (m.choose x * (n - m).choose (m - x) : ℕ) + 1e-30 := by
  obtain ⟨v1, e1, h1⟩ := lnBinomial_near D hd hg hx hm hn
  obtain ⟨v2, e2, h2⟩ := lnBinomial_near D hd hg hx' (show n - m ≤ n by omega) hn
  have hnr : (n : ℝ) ≤ 900 := by exact_mod_cast hn
  have hn0 : (0 : ℝ) ≤ n := Nat.cast_nonneg n
  have ht := tiny_le
  obtain ⟨l1, l2⟩ := log_choose_bounds hx
  obtain ⟨l3, l4⟩ := log_choose_bounds hx'
  have hmr : (m : ℝ) + ((n - m : ℕ) : ℝ) = n := by rw [← Nat.cast_add]; congr 1; omega
  have c1 : (0 : ℝ) < m.choose x := by exact_mod_cast Nat.choose_pos hx
  have c2 : (0 : ℝ) < (n - m).choose (m - x) := by exact_mod_cast Nat.choose_pos hx'
  have hw : (0 : ℝ) < (m.choose x * (n - m).choose (m - x) : ℕ) := by push_cast; positivity
  have hl : Real.log (m.choose x * (n - m).choose (m - x) : ℕ) = Real.log (m.choose x) + Real.log ((n - m).choose (m - x)) := by
    push_cast; rw [Real.log_mul c1.ne' c2.ne']
  have h1' := abs_le.1 h1
  have h2' := abs_le.1 h2
  have s : |v1 + v2| ≤ n + 1 := abs_le.2 ⟨by linarith, by linarith⟩
  obtain ⟨y, ey, hy⟩ := rnd_err D (x := v1 + v2) (big_le (y := 1e10) (by linarith) (by norm_num))
  have hy' := abs_le.1 (show |y - (v1 + v2)| ≤ 1.2e-16 * (n + 1) + 1e-30 by linarith)
  have hl2 : Real.log (m.choose x * (n - m).choose (m - x) : ℕ) ≤ 700 := by
    have h3 : m.choose x * (n - m).choose (m - x) ≤ 2 ^ n := by
      calc _ ≤ 2 ^ m * 2 ^ (n - m) := Nat.mul_le_mul (Nat.choose_le_two_pow _ _) (Nat.choose_le_two_pow _ _)
        _ = 2 ^ n := by rw [← pow_add]; congr 1; omega
    have h4 := Real.log_le_log hw (show ((m.choose x * (n - m).choose (m - x) : ℕ) : ℝ) ≤ 2 ^ n by exact_mod_cast h3)
    rw [Real.log_pow] at h4
    have := Real.log_two_lt_d9
    nlinarith
  obtain ⟨a, ea, ha⟩ := exp_entry D hd hw hl2 (v := y) (η := 4.3e-14 * n + 2e-16) (by rw [hl]; exact abs_le.2 ⟨by linarith, by linarith⟩) (by linarith)
  refine ⟨a, ?_, ha.trans (add_le_add (mul_le_mul_of_nonneg_right (by linarith) hw.le) le_rfl)⟩
  unfold Rounded.hyperEntry
  rw [show ((n : ℤ) - m) = ((n - m : ℕ) : ℤ) by omega, show ((m : ℤ) - x) = ((m - x : ℕ) : ℤ) by omega, e1, e2, Machine.add_fin, ey, ea]

/-- Where the search ends up. -/
theorem hyper_search (D : DoubleWithin M d) (hd : d ≤ 9e-16) (hg : ∀ k : ℕ, k ≤ 900 → Close d (M.lnGamma (fin (k + 1))) (Real.log (k ! : ℕ)))
    {n m : ℕ} (hm : m ≤ n) (hn : n ≤ 900) {u : ℝ} (u0 : 0 ≤ u) (u1 : u < 1) :
    ∃ k : ℕ, (Rounded.hypergeometric M n m m).draw (fin u) = some ((hgMin n m m + k : ℕ) : ℤ) ∧ k < hgCount n m m ∧
      ∑ i ∈ Finset.range k, hgWeight n m m i / n.choose m - (9e-14 * n + 8e-15) ≤ u ∧
      u ≤ ∑ i ∈ Finset.range (k + 1), hgWeight n m m i / n.choose m + (9e-14 * n + 8e-15) := by
  have hnr : (n : ℝ) ≤ 900 := by exact_mod_cast hn
  have hn0 : (0 : ℝ) ≤ n := Nat.cast_nonneg n
  have key : ∀ i, i < hgCount n m m → ∃ a, Rounded.hyperEntry M n m ((hgMin n m m + i : ℕ) : ℤ) = fin a ∧
      |a - hgWeight n m m i| ≤ (4.31e-14 * n + 2e-15) * hgWeight n m m i + 1e-30 := fun i hi => by
    rw [hgCount, hgMin] at hi
    exact hyper_entry D hd hg hm hn (x := hgMin n m m + i) (by rw [hgMin]; omega) (by rw [hgMin]; omega)
  classical
  set g : ℕ → ℝ := fun i => if h : ∃ a, Rounded.hyperEntry M n m ((hgMin n m m + i : ℕ) : ℤ) = fin a ∧
      |a - hgWeight n m m i| ≤ (4.31e-14 * n + 2e-15) * hgWeight n m m i + 1e-30 then h.choose else 0 with hgdef
  have hgs : ∀ i, i < hgCount n m m → Rounded.hyperEntry M n m ((hgMin n m m + i : ℕ) : ℤ) = fin (g i) ∧
      |g i - hgWeight n m m i| ≤ (4.31e-14 * n + 2e-15) * hgWeight n m m i + 1e-30 := fun i hi => by
    have := key i hi
    simp only [hgdef]
    rw [dif_pos this]
    exact this.choose_spec
  set l := (List.range (hgCount n m m)).map g with hl
  have ll : l.length = hgCount n m m := by rw [hl]; simp
  have hcpos : 1 ≤ hgCount n m m := by rw [hgCount, hgMin]; omega
  have hC : (0 : ℝ) < n.choose m := by exact_mod_cast Nat.choose_pos hm
  have hC1 : (1 : ℝ) ≤ n.choose m := by exact_mod_cast Nat.choose_pos hm
  have hlen : (l.length : ℝ) ≤ n + 1 := by
    rw [ll]
    have : hgCount n m m ≤ n + 1 := by rw [hgCount]; omega
    exact_mod_cast this
  have ew : ∀ i, (n.choose m : ℝ) * (hgWeight n m m i / n.choose m) = hgWeight n m m i := fun i => by field_simp
  obtain ⟨k, hk, kl, k1, k2⟩ := table_search D (l := l) (w := fun i => hgWeight n m m i / n.choose m) (c := n.choose m) (η := 4.31e-14 * n + 2e-15)
    (θ := 4.33e-14 * n + 3e-15) hC1 (by
      have h2 : (n.choose m : ℝ) ≤ 2 ^ n := by exact_mod_cast Nat.choose_le_two_pow n m
      rw [← zpow_natCast] at h2
      exact h2.trans (zpow_le_zpow_right₀ one_le_two (by omega))) (by intro h; rw [h] at ll; simp at ll; omega)
    (fun i => div_nonneg (Nat.cast_nonneg _) hC.le) (by rw [ll, ← Finset.sum_div, hg_sum hm, div_self hC.ne'])
    (by positivity) (by linarith) (by linarith) (fun i hi => by
      rw [ll] at hi
      have h1 := (hgs i hi).2
      rw [ew, List.getD_eq_getElem _ _ (by rw [ll]; exact hi)]
      simp only [hl, List.getElem_map, List.getElem_range]
      refine h1.trans ?_
      have e : (n.choose m : ℝ) * ((4.31e-14 * n + 2e-15) * (hgWeight n m m i / n.choose m) + 1e-30) = (4.31e-14 * n + 2e-15) * hgWeight n m m i + n.choose m * 1e-30 := by
        rw [← ew i]; field_simp
      rw [e]
      linarith) u1
  rw [max_eq_left u0] at k1
  refine ⟨k, ?_, by omega, by linarith, by linarith⟩
  show (search (fin u) (Rounded.normalize M (Rounded.cumulate M _))).map _ = _
  have e : (List.range (Hypergeometric.upper m m + 1 - Hypergeometric.lower n m m).toNat).map (fun i : ℕ => Rounded.hyperEntry M n m (Hypergeometric.lower n m m + (i : ℤ))) = l.map fin := by
    rw [hg_lower, hg_upper, show (((min m m : ℕ) : ℤ) + 1 - (hgMin n m m : ℤ)).toNat = hgCount n m m by rw [hgCount]; omega, hl, List.map_map]
    refine List.map_congr_left fun i hi => ?_
    rw [List.mem_range] at hi
    rw [← Nat.cast_add]
    exact (hgs i hi).1
  rw [e, hk]
  show some (Hypergeometric.lower n m m + (k : ℤ)) = _
  rw [hg_lower, Nat.cast_add]

/-! ### The sums of the probabilities -/

theorem binomial_sum {p : ℝ} (h0 : 0 < p) (h1 : p < 1) (n : ℕ) :
    (∀ k : ℕ, upTo 0 (Spec.binomial p n) (k - 1) = ∑ i ∈ Finset.range k, binW p n i) ∧ (∀ t, upTo 0 (Spec.binomial p n) t ≤ 1) ∧ ∀ x, 0 ≤ Spec.binomial p n x := by
  have eb : ∀ k : ℕ, Spec.binomial p n k = binW p n k := fun k => by
    rw [Spec.binomial, if_pos (by omega), Int.toNat_natCast, binW]
  have a : (fun k : ℕ => ∑ i ∈ Finset.range k, binW p n i) 0 = 0 := by simp
  have b : ∀ k : ℕ, (fun k : ℕ => ∑ i ∈ Finset.range k, binW p n i) (k + 1) = (fun k : ℕ => ∑ i ∈ Finset.range k, binW p n i) k + Spec.binomial p n (0 + k) := fun k => by
    simp only [Finset.sum_range_succ, zero_add]
    rw [eb]
  refine ⟨fun k => ?_, upTo_le (F := fun k : ℕ => ∑ i ∈ Finset.range k, binW p n i) a b fun k => ?_, fun x => ?_⟩
  · have := upTo_eq (F := fun k : ℕ => ∑ i ∈ Finset.range k, binW p n i) a b k
    rwa [zero_add] at this
  · rcases le_total k (n + 1) with h | h
    · exact (Finset.sum_le_sum_of_subset_of_nonneg (Finset.range_mono h) fun i _ _ => binW_nonneg h0 h1 n i).trans_eq (binW_sum p n)
    · obtain ⟨j, rfl⟩ := Nat.exists_eq_add_of_le h
      show ∑ i ∈ Finset.range (n + 1 + j), binW p n i ≤ 1
      rw [Finset.sum_range_add, binW_sum, Finset.sum_eq_zero, add_zero]
      intro i _
      rw [binW, Nat.choose_eq_zero_of_lt (by omega)]
      simp
  · rcases lt_or_ge x 0 with h | h
    · rw [Spec.binomial, if_neg (by omega)]
    · obtain ⟨k, rfl⟩ := Int.eq_ofNat_of_zero_le h
      rw [eb]; exact binW_nonneg h0 h1 n k

theorem hyper_sum {n m : ℕ} (hm : m ≤ n) :
    (∀ k : ℕ, k ≤ hgCount n m m → upTo (hgMin n m m) (Spec.hypergeometric n m m) ((hgMin n m m + k : ℕ) - 1 : ℤ) = ∑ i ∈ Finset.range k, hgWeight n m m i / n.choose m) ∧
    (∀ t, upTo (hgMin n m m) (Spec.hypergeometric n m m) t ≤ 1) ∧ ∀ x, 0 ≤ Spec.hypergeometric n m m x := by
  have hC : (0 : ℝ) < n.choose m := by exact_mod_cast Nat.choose_pos hm
  have hcount : hgMin n m m + hgCount n m m = m + 1 := by rw [hgCount, hgMin]; omega
  set w : ℕ → ℝ := fun i => if i < hgCount n m m then hgWeight n m m i / n.choose m else 0 with hw
  have hw0 : ∀ i, 0 ≤ w i := fun i => by
    simp only [hw]; split_ifs
    · exact div_nonneg (Nat.cast_nonneg _) hC.le
    · exact le_rfl
  have eb : ∀ k : ℕ, Spec.hypergeometric n m m ((hgMin n m m : ℤ) + k) = w k := fun k => by
    rw [← Nat.cast_add, Spec.hypergeometric]
    simp only [hw]
    by_cases h : k < hgCount n m m
    · rw [if_pos h, if_pos ⟨by omega, by omega⟩, Int.toNat_natCast, hgWeight]
    · rw [if_neg h, if_neg (by omega)]
  have a : (fun k : ℕ => ∑ i ∈ Finset.range k, w i) 0 = 0 := by simp
  have b : ∀ k : ℕ, (fun k : ℕ => ∑ i ∈ Finset.range k, w i) (k + 1) = (fun k : ℕ => ∑ i ∈ Finset.range k, w i) k + Spec.hypergeometric n m m ((hgMin n m m : ℤ) + k) := fun k => by
    simp only [Finset.sum_range_succ]
    rw [eb]
  have same : ∀ k, k ≤ hgCount n m m → ∑ i ∈ Finset.range k, w i = ∑ i ∈ Finset.range k, hgWeight n m m i / n.choose m := fun k hk =>
    Finset.sum_congr rfl fun i hi => by
      rw [Finset.mem_range] at hi
      simp only [hw]; rw [if_pos (by omega)]
  have total : ∑ i ∈ Finset.range (hgCount n m m), w i = 1 := by
    rw [same _ le_rfl, ← Finset.sum_div, hg_sum hm, div_self hC.ne']
  refine ⟨fun k hk => ?_, upTo_le (F := fun k : ℕ => ∑ i ∈ Finset.range k, w i) a b fun k => ?_, fun x => ?_⟩
  · have := upTo_eq (F := fun k : ℕ => ∑ i ∈ Finset.range k, w i) a b k
    rw [← same k hk]
    push_cast
    exact this
  · rcases le_total k (hgCount n m m) with h | h
    · exact (Finset.sum_le_sum_of_subset_of_nonneg (Finset.range_mono h) fun i _ _ => hw0 i).trans_eq total
    · obtain ⟨j, rfl⟩ := Nat.exists_eq_add_of_le h
      show ∑ i ∈ Finset.range (hgCount n m m + j), w i ≤ 1
      rw [Finset.sum_range_add, total, Finset.sum_eq_zero, add_zero]
      intro i _
      simp only [hw]; rw [if_neg (by omega)]
  · rw [Spec.hypergeometric]
    split_ifs
    · positivity
    · exact le_rfl

end Trng.PeriodLaw
