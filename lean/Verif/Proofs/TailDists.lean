import Verif.Proofs.TableDists
import Mathlib.MeasureTheory.Integral.IntegralEqImproper
import Mathlib.Analysis.SpecialFunctions.Integrals.Basic
import Mathlib.Analysis.SpecialFunctions.Exp
import Mathlib.Analysis.SpecialFunctions.ExpDeriv
import Mathlib.Analysis.SpecialFunctions.Pow.Deriv
import Mathlib.Analysis.Calculus.Deriv.MeanValue

/-! Proofs for poisson_dist, zero_truncated_poisson_dist and negative_binomial_dist. -/
namespace Trng
open Discrete XR MeasureTheory
open scoped Nat

/-! ### The sampling scheme -/

section
variable {f : ℕ → ℝ} (hf : ∀ k, 0 ≤ f k)

theorem sums_mono (hf : ∀ k, 0 ≤ f k) {i j : ℕ} (h : i ≤ j) : (Finset.range (i + 1)).sum f ≤ (Finset.range (j + 1)).sum f :=
  Finset.sum_le_sum_of_subset_of_nonneg (fun x hx => by rw [Finset.mem_range] at *; omega) fun x _ _ => hf x

theorem tailLoop_spec {pdf : ℤ → XR} (hpdf : ∀ k : ℕ, pdf (k + 1 : ℕ) = fin (f (k + 1))) (u : ℝ) (M : ℕ) : ∀ (fuel x : ℕ), fuel + x = M + 1 → 1 ≤ fuel →
    (((Finset.range (M + 1)).sum f < u ∧ (∀ j, x ≤ j → j ≤ M → (Finset.range (j + 1)).sum f < u)) →
      tailLoop pdf fuel (fin (u - (Finset.range (x + 1)).sum f)) x = none) ∧
    (u ≤ (Finset.range (M + 1)).sum f → ∃ k : ℕ, tailLoop pdf fuel (fin (u - (Finset.range (x + 1)).sum f)) x = some (k : ℤ) ∧ x ≤ k ∧ k ≤ M ∧
      u ≤ (Finset.range (k + 1)).sum f ∧ (x < k → (Finset.range k).sum f < u)) := by
  intro fuel
  induction fuel with
  | zero => intro x _ h; omega
  | succ n ih =>
    intro x hx _
    have hz : (0 : XR) = fin 0 := by simp
    have hstep : fin (u - (Finset.range (x + 1)).sum f) - pdf ((x : ℤ) + 1) = fin (u - (Finset.range (x + 1 + 1)).sum f) := by
      have := hpdf x
      push_cast at this
      rw [this, fin_sub, Finset.sum_range_succ f (x + 1), sub_sub]
    rw [tailLoop, hz, hstep]
    constructor
    · rintro ⟨h1, h2⟩
      rw [if_pos ((fin_lt _ _).2 (sub_pos.2 (h2 x le_rfl (by omega))))]
      rcases Nat.eq_zero_or_pos n with h0 | h0
      · subst h0; rfl
      · have := (ih (x + 1) (by omega) h0).1 ⟨h1, fun j hj => h2 j (by omega)⟩
        push_cast at this
        exact this
    · intro hu
      by_cases hlt : 0 < u - (Finset.range (x + 1)).sum f
      · rw [if_pos ((fin_lt _ _).2 hlt)]
        have hn : 1 ≤ n := by
          by_contra h
          have : x = M := by omega
          subst this
          linarith
        obtain ⟨k, hk, h1, h2, h3, h4⟩ := (ih (x + 1) (by omega) hn).2 hu
        push_cast at hk
        refine ⟨k, hk, by omega, h2, h3, fun _ => ?_⟩
        rcases Nat.lt_or_ge (x + 1) k with h | h
        · exact h4 h
        · have : k = x + 1 := by omega
          rw [this]
          exact sub_pos.1 hlt
      · rw [if_neg (fun h => hlt ((fin_lt _ _).1 h))]
        exact ⟨x, rfl, le_rfl, by omega, by linarith, fun h => absurd h (lt_irrefl _)⟩

/-- The table: the first `c` values of the distribution function and a final 1. -/
noncomputable def tailTable (f : ℕ → ℝ) (c : ℕ) : List ℝ := ((List.range c).map fun k => (Finset.range (k + 1)).sum f) ++ [1]

theorem tailTable_length (f : ℕ → ℝ) (c : ℕ) : (tailTable f c).length = c + 1 := by simp [tailTable]

theorem tailTable_lt (f : ℕ → ℝ) {c k : ℕ} (h : k < c) : (tailTable f c).getD k 0 = (Finset.range (k + 1)).sum f := by
  rw [List.getD_eq_getElem?_getD, tailTable, List.getElem?_append_left (by simpa using h)]
  simp [h]

theorem tailTable_last (f : ℕ → ℝ) (c : ℕ) : (tailTable f c).getD c 0 = 1 := by
  rw [List.getD_eq_getElem?_getD, tailTable, List.getElem?_append_right (by simp)]
  simp

include hf in
/-- The sampling scheme returns the least value whose distribution function reaches the deviate, wherever the table
ends. -/
theorem tailDraw_spec {cdf pdf : ℤ → XR} (hcdf : ∀ k : ℕ, cdf k = fin ((Finset.range (k + 1)).sum f))
    (hpdf : ∀ k : ℕ, pdf (k + 1 : ℕ) = fin (f (k + 1))) {c : ℕ} (hc : c < 2 ^ 31) {u : ℝ} (h1 : u < 1) :
    ((Finset.range (2 ^ 31)).sum f < u → tailDraw cdf pdf ((tailTable f c).map fin) (fin u) = none) ∧
    (u ≤ (Finset.range (2 ^ 31)).sum f → ∃ k : ℕ, tailDraw cdf pdf ((tailTable f c).map fin) (fin u) = some (k : ℤ) ∧ k < 2 ^ 31 ∧
      u ≤ (Finset.range (k + 1)).sum f ∧ (k ≠ 0 → (Finset.range k).sum f ≤ u) ∧ (2 ≤ k → (Finset.range k).sum f < u) ∧
      (k = 0 → 0 < c → u < f 0)) := by
  have hne : tailTable f c ≠ [] := fun h => by simpa [h] using tailTable_length f c
  obtain ⟨x, hx, hxl, hup, hlow, hlow', hzero⟩ := search_bounds hne (by rw [tailTable_length]; exact tailTable_last f c) h1
  rw [tailTable_length] at hxl
  rw [tailDraw, search_fin, hx, Option.bind_some, List.length_map, tailTable_length]
  rcases Nat.lt_or_ge x c with h | h
  · rw [tailTable_lt f h] at hup
    rw [if_neg (by omega)]
    constructor
    · intro hlt
      have hm := sums_mono hf (show x ≤ 2 ^ 31 - 1 by omega)
      exact absurd (hup.trans hm) (not_le.2 hlt)
    · intro _
      refine ⟨x, rfl, by omega, hup, fun hk => ?_, fun hk => ?_, fun hk _ => ?_⟩
      · have := hlow hk
        rwa [tailTable_lt f (by omega), show x - 1 + 1 = x by omega] at this
      · have := hlow' hk
        rwa [tailTable_lt f (by omega), show x - 1 + 1 = x by omega] at this
      · have := hzero hk
        rwa [tailTable_lt f (by omega), zero_add, Finset.sum_range_one] at this
  · have : x = c := by omega
    subst this
    rw [if_pos rfl, hcdf, fin_sub]
    obtain ⟨a, b⟩ := tailLoop_spec hpdf u (2 ^ 31 - 1) (2 ^ 31 - x) x (by omega) (by omega)
    rw [show 2 ^ 31 - 1 + 1 = 2 ^ 31 by norm_num] at a b
    constructor
    · intro hlt
      exact a ⟨hlt, fun j _ hj => lt_of_le_of_lt (sums_mono hf hj) (by rwa [show 2 ^ 31 - 1 + 1 = 2 ^ 31 by norm_num])⟩
    · intro hle
      obtain ⟨k, hk, h2, h3, h4, h5⟩ := b hle
      refine ⟨k, hk, by omega, h4, fun hk0 => ?_, fun hk2 => ?_, fun hk0 hx0 => by omega⟩
      · rcases Nat.lt_or_ge x k with h' | h'
        · exact (h5 h').le
        · have : x = k := by omega
          subst this
          have := hlow hk0
          rwa [tailTable_lt f (by omega), show x - 1 + 1 = x by omega] at this
      · rcases Nat.lt_or_ge x k with h' | h'
        · exact h5 h'
        · have : x = k := by omega
          subst this
          have := hlow' hk2
          rwa [tailTable_lt f (by omega), show x - 1 + 1 = x by omega] at this

include hf in
/-- Hence the probabilities. -/
theorem prob_of_bounds (hF : ∀ k, (Finset.range k).sum f ≤ 1) {draw : ℝ → Option ℤ} {M : ℕ}
    (hn : ∀ u, 0 ≤ u → u < 1 → (Finset.range M).sum f < u → draw u = none)
    (hd : ∀ u, 0 ≤ u → u < 1 → u ≤ (Finset.range M).sum f → ∃ k : ℕ, draw u = some (k : ℤ) ∧ k < M ∧
      u ≤ (Finset.range (k + 1)).sum f ∧ (k ≠ 0 → (Finset.range k).sum f ≤ u)) {k : ℕ} (hk : k < M) :
    volume {u : ℝ | 0 ≤ u ∧ u < 1 ∧ draw u = some (k : ℤ)} = ENNReal.ofReal (f k) := by
  have hmono : ∀ {i j : ℕ}, i ≤ j → (Finset.range i).sum f ≤ (Finset.range j).sum f := fun h =>
    Finset.sum_le_sum_of_subset_of_nonneg (fun x hx => by rw [Finset.mem_range] at *; omega) fun x _ _ => hf x
  have e : f k = (Finset.range (k + 1)).sum f - (Finset.range k).sum f := by rw [Finset.sum_range_succ]; ring
  have h0 : 0 ≤ (Finset.range k).sum f := Finset.sum_nonneg fun i _ => hf i
  rw [e]
  refine volume_between (fun u hu => ?_) (fun u hu => ?_)
  · have hu0 : 0 ≤ u := h0.trans hu.1.le
    have hu1 : u < 1 := lt_of_lt_of_le hu.2 (hF _)
    obtain ⟨j, hj, hjM, hj1, hj2⟩ := hd u hu0 hu1 (hu.2.le.trans (hmono (by omega)))
    refine ⟨hu0, hu1, ?_⟩
    rw [hj]
    rcases Nat.lt_trichotomy j k with h | h | h
    · exact absurd (hj1.trans (hmono (show j + 1 ≤ k by omega))) (not_le.2 hu.1)
    · rw [h]
    · exact absurd ((hmono (show k + 1 ≤ j by omega)).trans (hj2 (by omega))) (not_le.2 hu.2)
  · obtain ⟨hu0, hu1, hu⟩ := hu
    by_cases hM : u ≤ (Finset.range M).sum f
    · obtain ⟨j, hj, hjM, hj1, hj2⟩ := hd u hu0 hu1 hM
      have : j = k := by exact_mod_cast Option.some.inj (hj.symm.trans hu)
      subst this
      refine ⟨?_, hj1⟩
      by_cases h : j = 0
      · rw [h]; simpa using hu0
      · exact hj2 h
    · rw [hn u hu0 hu1 (not_le.1 hM)] at hu
      cases hu
end

/-! ### poisson_dist -/

/-- Poisson probabilities of natural numbers. -/
noncomputable def poi (mu : ℝ) (k : ℕ) : ℝ := Real.exp (-mu) * mu ^ k / k !

theorem poi_nonneg {mu : ℝ} (h : 0 ≤ mu) (k : ℕ) : 0 ≤ poi mu k := by rw [poi]; positivity

theorem poi_sum_le {mu : ℝ} (h : 0 ≤ mu) (k : ℕ) : (Finset.range k).sum (poi mu) ≤ 1 := by
  have e : (Finset.range k).sum (poi mu) = Real.exp (-mu) * ∑ i ∈ Finset.range k, mu ^ i / i ! := by
    rw [Finset.mul_sum]; exact Finset.sum_congr rfl fun i _ => by rw [poi]; ring
  rw [e]
  calc Real.exp (-mu) * _ ≤ Real.exp (-mu) * Real.exp mu := mul_le_mul_of_nonneg_left (Real.sum_le_exp_of_nonneg h k) (Real.exp_pos _).le
    _ = 1 := by rw [← Real.exp_add]; simp

theorem poi_deriv (k : ℕ) (t : ℝ) : HasDerivAt (fun x => -(Finset.range (k + 1)).sum (poi x)) (Real.exp (-t) * t ^ k / k !) t := by
  induction k with
  | zero =>
    have : (fun x : ℝ => -(Finset.range (0 + 1)).sum (poi x)) = fun x => -Real.exp (-x) := by
      funext x; simp [poi]
    rw [this]
    have := ((hasDerivAt_neg t).exp).fun_neg
    simpa using this
  | succ k ih =>
    have e : (fun x : ℝ => -(Finset.range (k + 1 + 1)).sum (poi x)) = fun x => -(Finset.range (k + 1)).sum (poi x) - poi x (k + 1) := by
      funext x; rw [Finset.sum_range_succ]; ring
    rw [e]
    have h1 : HasDerivAt (fun x => poi x (k + 1)) ((-Real.exp (-t) * t ^ (k + 1) + Real.exp (-t) * ((k + 1 : ℕ) * t ^ k)) / (k + 1)!) t := by
      have ha : HasDerivAt (fun x => Real.exp (-x)) (-Real.exp (-t)) t := by simpa using (hasDerivAt_neg t).exp
      have hb := hasDerivAt_pow (k + 1) t
      exact (ha.mul hb).div_const _
    refine (ih.fun_sub h1).congr_deriv ?_
    have hk : ((k ! : ℕ) : ℝ) ≠ 0 := Nat.cast_ne_zero.2 (Nat.factorial_ne_zero k)
    have hk1 : ((k : ℝ) + 1) ≠ 0 := by positivity
    rw [Nat.factorial_succ]
    push_cast
    field_simp
    ring

theorem poi_tendsto (k : ℕ) : Filter.Tendsto (fun x => -(Finset.range (k + 1)).sum (poi x)) Filter.atTop (nhds 0) := by
  have h : ∀ i : ℕ, Filter.Tendsto (fun x => poi x i) Filter.atTop (nhds 0) := by
    intro i
    have := (Real.tendsto_pow_mul_exp_neg_atTop_nhds_zero i).div_const ((i ! : ℕ) : ℝ)
    rw [zero_div] at this
    refine this.congr fun x => ?_
    rw [poi]; ring
  have := (tendsto_finsetSum (Finset.range (k + 1)) fun i _ => h i).neg
  simpa using this

/-- The regularized incomplete Gamma function at integers. -/
theorem gammaQ_nat {mu : ℝ} (h : 0 ≤ mu) (k : ℕ) :
    (∫ t in Set.Ioi mu, Real.exp (-t) * t ^ (((k : ℝ) + 1) - 1)) / Real.Gamma ((k : ℝ) + 1) = (Finset.range (k + 1)).sum (poi mu) := by
  have hint := integral_Ioi_of_hasDerivAt_of_nonneg' (a := mu) (g := fun x => -(Finset.range (k + 1)).sum (poi x))
    (g' := fun t => Real.exp (-t) * t ^ k / k !) (l := 0) (fun x _ => poi_deriv k x)
    (fun x hx => by have : 0 ≤ x := h.trans (le_of_lt hx); positivity) (poi_tendsto k)
  rw [zero_sub, neg_neg] at hint
  rw [← hint, Real.Gamma_nat_eq_factorial, add_sub_cancel_right]
  simp only [Real.rpow_natCast]
  rw [integral_div]

theorem poisson_cdf {mu : ℝ} (h : 0 ≤ mu) (k : ℕ) : GammaQ (ofInt k + 1) (fin mu) = fin ((Finset.range (k + 1)).sum (poi mu)) := by
  have e : (ofInt k : XR) + 1 = fin ((k : ℝ) + 1) := by simp [ofInt]
  rw [e, GammaQ, if_neg]
  · rw [gammaQ_nat h]
  · have : (0 : ℝ) ≤ k := Nat.cast_nonneg k
    rintro (h' | h') <;> linarith

theorem poisson_pdf {mu : ℝ} (h : 0 < mu) (k : ℕ) : Poisson.pdf (fin mu) k = fin (poi mu k) := by
  have e : (ofInt k : XR) + 1 = fin ((k : ℝ) + 1) := by simp [ofInt]
  have hk : (0 : ℝ) < ((k ! : ℕ) : ℝ) := Nat.cast_pos.2 (Nat.factorial_pos k)
  rw [Poisson.pdf, if_neg (by omega), e, lnGamma_succ, ln_fin h, ofInt, neg_fin, fin_sub, fin_mul, fin_add, exp_fin, poi]
  congr 1
  rw [Int.cast_natCast, ← Real.log_pow, Real.exp_add, Real.exp_log (pow_pos h k), Real.exp_sub, Real.exp_log hk]
  ring

theorem poisson_tableLoop {mu : ℝ} (h : 0 ≤ mu) (hm : 2 * mu ≤ 2 ^ 31 - 1) : ∀ fuel x : ℕ, fuel + x = 2 ^ 31 → 1 ≤ fuel →
    ∃ c, x ≤ c ∧ c < 2 ^ 31 ∧ (7 ≤ c ∨ c = x) ∧ (x < 7 → 7 ≤ c) ∧ Poisson.tableLoop (fin mu) fuel x =
      some (((List.range' x (c - x)).map fun k => fin ((Finset.range (k + 1)).sum (poi mu))) ++ [fin 1]) := by
  intro fuel
  induction fuel with
  | zero => intro x _ h; omega
  | succ n ih =>
    intro x hx _
    rw [Poisson.tableLoop]
    by_cases hc : (x : ℤ) < 7 ∨ ofInt x < 2 * fin mu
    · rw [if_pos hc]
      have hn : 1 ≤ n := by
        by_contra hn
        have hx' : x = 2 ^ 31 - 1 := by omega
        rcases hc with hc | hc
        · omega
        · rw [ofNat_fin, fin_mul, ofInt, fin_lt, hx'] at hc
          norm_num at hc
          linarith
      obtain ⟨c, h1, h2, h3, h4, h5⟩ := ih (x + 1) (by omega) hn
      refine ⟨c, by omega, h2, by omega, by omega, ?_⟩
      push_cast at h5
      rw [h5, Option.map_some, poisson_cdf h, show c - x = (c - (x + 1)) + 1 by omega, List.range'_succ]
      rfl
    · rw [if_neg hc]
      refine ⟨x, le_rfl, by omega, Or.inr rfl, fun h => absurd (Or.inl (by omega)) hc, ?_⟩
      simp

theorem poisson_table {mu : ℝ} (h : 0 ≤ mu) (hm : 2 * mu ≤ 2 ^ 31 - 1) :
    ∃ c, 7 ≤ c ∧ c < 2 ^ 31 ∧ Poisson.table (fin mu) = some ((tailTable (poi mu) c).map fin) := by
  obtain ⟨c, -, h2, -, h4, h5⟩ := poisson_tableLoop h hm (2 ^ 31) 0 (by norm_num) (by norm_num)
  refine ⟨c, h4 (by norm_num), h2, ?_⟩
  rw [Poisson.table]
  have h5' : Poisson.tableLoop (fin mu) (2 ^ 31) 0 = _ := h5
  rw [h5', tailTable, List.range_eq_range']
  simp

/-! ### zero_truncated_poisson_dist -/

/-- Zero-truncated Poisson probabilities of natural numbers. -/
noncomputable def ztp (mu : ℝ) (k : ℕ) : ℝ := if k = 0 then 0 else poi mu k / (1 - Real.exp (-mu))

theorem one_sub_exp_pos {mu : ℝ} (h : 0 < mu) : 0 < 1 - Real.exp (-mu) := by
  have : Real.exp (-mu) < 1 := by rw [← Real.exp_zero]; exact Real.exp_lt_exp.2 (by linarith)
  linarith

theorem ztp_nonneg {mu : ℝ} (h : 0 < mu) (k : ℕ) : 0 ≤ ztp mu k := by
  rw [ztp]
  split_ifs
  · exact le_rfl
  · exact div_nonneg (poi_nonneg h.le k) (one_sub_exp_pos h).le

theorem ztp_sum {mu : ℝ} (h : 0 < mu) (k : ℕ) :
    (Finset.range (k + 1)).sum (ztp mu) = ((Finset.range (k + 1)).sum (poi mu) - Real.exp (-mu)) / (1 - Real.exp (-mu)) := by
  have hp := one_sub_exp_pos h
  induction k with
  | zero => simp [ztp, poi]
  | succ k ih =>
    rw [Finset.sum_range_succ, ih, Finset.sum_range_succ _ (k + 1), ztp, if_neg (Nat.succ_ne_zero k)]
    ring

theorem ztp_sum_le {mu : ℝ} (h : 0 < mu) (k : ℕ) : (Finset.range k).sum (ztp mu) ≤ 1 := by
  have hp := one_sub_exp_pos h
  cases k with
  | zero => simp
  | succ k =>
    rw [ztp_sum h, div_le_one hp]
    have := poi_sum_le h.le (k + 1)
    linarith

theorem ztp_entry {mu : ℝ} (h : 0 < mu) (k : ℕ) :
    (XR.exp (fin mu) * GammaQ (ofInt k + 1) (fin mu) - 1) / expm1 (fin mu) = fin ((Finset.range (k + 1)).sum (ztp mu)) := by
  have hp : 0 < Real.exp mu - 1 := by have := Real.one_lt_exp_iff.2 h; linarith
  have hp' := one_sub_exp_pos h
  rw [poisson_cdf h.le, exp_fin, expm1_fin, fin_mul, ofNat_fin, fin_sub, fin_div hp.ne', ztp_sum h]
  congr 1
  rw [div_eq_div_iff hp.ne' hp'.ne']
  have e : Real.exp mu * Real.exp (-mu) = 1 := by rw [← Real.exp_add]; simp
  push_cast
  linear_combination ((Finset.range (k + 1)).sum (poi mu) - 1) * (-e)

theorem ztp_cdf {mu : ℝ} (h : 0 < mu) (k : ℕ) : ZTPoisson.cdf (fin mu) k = fin ((Finset.range (k + 1)).sum (ztp mu)) := by
  rw [ZTPoisson.cdf]
  by_cases hk : (k : ℤ) ≤ 0
  · have : k = 0 := by omega
    subst this
    rw [if_pos hk]
    simp [ztp]
  · rw [if_neg hk, ztp_entry h]

theorem ztp_pdf {mu : ℝ} (h : 0 < mu) (k : ℕ) : ZTPoisson.pdf (fin mu) k = fin (ztp mu k) := by
  rw [ZTPoisson.pdf]
  by_cases hk : (k : ℤ) ≤ 0
  · have : k = 0 := by omega
    subst this
    rw [if_pos hk]
    simp [ztp]
  · rw [if_neg hk, ztp, if_neg (by omega)]
    have e : (ofInt k : XR) + 1 = fin ((k : ℝ) + 1) := by simp [ofInt]
    have hf : (0 : ℝ) < ((k ! : ℕ) : ℝ) := Nat.cast_pos.2 (Nat.factorial_pos k)
    have hp : 0 < Real.exp mu - 1 := by have := Real.one_lt_exp_iff.2 h; linarith
    have hp' := one_sub_exp_pos h
    rw [e, lnGamma_succ, ln_fin h, ofInt, neg_fin, fin_mul, fin_add, exp_fin, expm1_fin, fin_div hp.ne', poi]
    congr 1
    rw [Int.cast_natCast, ← Real.log_pow, Real.exp_add, Real.exp_log (pow_pos h k), Real.exp_neg, Real.exp_log hf]
    have e : Real.exp mu * Real.exp (-mu) = 1 := by rw [← Real.exp_add]; simp
    rw [div_div, ← div_eq_inv_mul, div_div, div_eq_div_iff (by positivity) (by positivity)]
    linear_combination mu ^ k * (k ! : ℕ) * (-e)

theorem ztp_tableLoop {mu : ℝ} (h : 0 < mu) (hm : 2 * mu ≤ 2 ^ 31 - 1) : ∀ fuel x : ℕ, fuel + x = 2 ^ 31 → 1 ≤ fuel →
    ∃ c, x ≤ c ∧ c < 2 ^ 31 ∧ (x < 7 → 7 ≤ c) ∧ ZTPoisson.tableLoop (fin mu) fuel x =
      some (((List.range' x (c - x)).map fun k => fin ((Finset.range (k + 1)).sum (ztp mu))) ++ [fin 1]) := by
  intro fuel
  induction fuel with
  | zero => intro x _ h; omega
  | succ n ih =>
    intro x hx _
    rw [ZTPoisson.tableLoop]
    by_cases hc : (x : ℤ) < 7 ∨ ofInt x < 2 * fin mu
    · rw [if_pos hc]
      have hn : 1 ≤ n := by
        by_contra hn
        have hx' : x = 2 ^ 31 - 1 := by omega
        rcases hc with hc | hc
        · omega
        · rw [ofNat_fin, fin_mul, ofInt, fin_lt, hx'] at hc
          norm_num at hc
          linarith
      obtain ⟨c, h1, h2, h4, h5⟩ := ih (x + 1) (by omega) hn
      refine ⟨c, by omega, h2, by omega, ?_⟩
      push_cast at h5
      rw [h5, Option.map_some, ztp_entry h, show c - x = (c - (x + 1)) + 1 by omega, List.range'_succ]
      rfl
    · rw [if_neg hc]
      refine ⟨x, le_rfl, by omega, fun h => absurd (Or.inl (by omega)) hc, ?_⟩
      simp

theorem ztp_table {mu : ℝ} (h : 0 < mu) (hm : 2 * mu ≤ 2 ^ 31 - 1) :
    ∃ c, 7 ≤ c ∧ c < 2 ^ 31 ∧ ZTPoisson.table (fin mu) = some ((tailTable (ztp mu) c).map fin) := by
  obtain ⟨c, -, h2, h4, h5⟩ := ztp_tableLoop h hm (2 ^ 31 - 1) 1 (by norm_num) (by norm_num)
  have h7 := h4 (by norm_num)
  refine ⟨c, h7, h2, ?_⟩
  rw [ZTPoisson.table]
  have h5' : ZTPoisson.tableLoop (fin mu) (2 ^ 31 - 1) 1 = _ := h5
  rw [h5', tailTable, List.range_eq_range', Option.map_some, show c = (c - 1) + 1 by omega, List.range'_succ]
  simp [ztp]

/-! ### negative_binomial_dist -/

/-- Negative binomial probabilities of natural numbers. -/
noncomputable def nbi (p r : ℝ) (k : ℕ) : ℝ := Real.Gamma (r + k) / (Real.Gamma r * k !) * p ^ r * (1 - p) ^ k

theorem nbi_nonneg {p r : ℝ} (h0 : 0 < p) (h1 : p ≤ 1) (hr : 0 < r) (k : ℕ) : 0 ≤ nbi p r k := by
  have a : 0 < Real.Gamma (r + k) := Real.Gamma_pos_of_pos (by positivity)
  have b : 0 < Real.Gamma r := Real.Gamma_pos_of_pos hr
  have c : 0 ≤ 1 - p := by linarith
  rw [nbi]; positivity

/-- The derivative of the partial sums. -/
theorem nbi_deriv {r t : ℝ} (hr : 0 < r) (ht : 0 < t) (k : ℕ) : HasDerivAt (fun p => (Finset.range (k + 1)).sum (nbi p r))
    (t ^ (r - 1) * (1 - t) ^ k * (Real.Gamma (r + k + 1) / (Real.Gamma r * k !))) t := by
  have hG : Real.Gamma r ≠ 0 := (Real.Gamma_pos_of_pos hr).ne'
  have hp : HasDerivAt (fun p : ℝ => p ^ r) (r * t ^ (r - 1)) t := Real.hasDerivAt_rpow_const (Or.inl ht.ne')
  induction k with
  | zero =>
    have : (fun p : ℝ => (Finset.range (0 + 1)).sum (nbi p r)) = fun p => p ^ r := by
      funext p; simp [nbi, hG]
    rw [this]
    convert hp using 1
    simp only [Nat.cast_zero, add_zero, pow_zero, Nat.factorial_zero, Nat.cast_one, mul_one]
    rw [Real.Gamma_add_one hr.ne']
    field_simp
  | succ k ih =>
    have e : (fun p : ℝ => (Finset.range (k + 1 + 1)).sum (nbi p r)) = fun p => (Finset.range (k + 1)).sum (nbi p r) + nbi p r (k + 1) := by
      funext p; rw [Finset.sum_range_succ]
    rw [e]
    have hq : HasDerivAt (fun p : ℝ => (1 - p) ^ (k + 1)) (((k + 1 : ℕ) : ℝ) * (1 - t) ^ k * (-1)) t := by
      have := (((hasDerivAt_id t).const_sub 1).fun_pow (k + 1))
      simpa using this
    have h1 := (hp.const_mul (Real.Gamma (r + (k + 1 : ℕ)) / (Real.Gamma r * (k + 1)!))).mul hq
    have h2 := ih.add h1
    refine h2.congr_deriv ?_
    have hk : ((k ! : ℕ) : ℝ) ≠ 0 := Nat.cast_ne_zero.2 (Nat.factorial_ne_zero k)
    have hk1 : ((k : ℝ) + 1) ≠ 0 := by positivity
    have hrk : r + k ≠ 0 := by positivity
    have hrk1 : r + k + 1 ≠ 0 := by positivity
    have ht' : t ^ r = t ^ (r - 1) * t := by
      rw [← Real.rpow_add_one ht.ne']; congr 1; ring
    have g2 : Real.Gamma (r + k + 1 + 1) = (r + k + 1) * Real.Gamma (r + k + 1) := Real.Gamma_add_one hrk1
    rw [Nat.factorial_succ]
    push_cast
    rw [show r + ((k : ℝ) + 1) = r + k + 1 by ring, g2, ht']
    field_simp
    ring

theorem nbi_integral {p r : ℝ} (h0 : 0 ≤ p) (hr : 0 < r) (k : ℕ) :
    (∫ t in (0 : ℝ)..p, t ^ (r - 1) * (1 - t) ^ ((k : ℝ) + 1 - 1)) * (Real.Gamma (r + (k + 1)) / (Real.Gamma r * Real.Gamma (k + 1))) =
      (Finset.range (k + 1)).sum (nbi p r) := by
  have hcont : ContinuousOn (fun p : ℝ => (Finset.range (k + 1)).sum (nbi p r)) (Set.Icc 0 p) := by
    refine continuousOn_finsetSum _ fun i _ => ?_
    refine ContinuousOn.mul (ContinuousOn.mul continuousOn_const ?_) (by fun_prop)
    exact (Real.continuous_rpow_const hr.le).continuousOn
  have hint : IntervalIntegrable (fun t : ℝ => t ^ (r - 1) * (1 - t) ^ k * (Real.Gamma (r + k + 1) / (Real.Gamma r * k !))) volume 0 p := by
    refine IntervalIntegrable.mul_const (IntervalIntegrable.mul_continuousOn ?_ (by fun_prop)) _
    exact intervalIntegral.intervalIntegrable_rpow' (by linarith)
  have := intervalIntegral.integral_eq_sub_of_hasDerivAt_of_le h0 hcont (fun x hx => nbi_deriv hr hx.1 k) hint
  rw [intervalIntegral.integral_mul_const] at this
  have hz : (Finset.range (k + 1)).sum (nbi 0 r) = 0 := Finset.sum_eq_zero fun i _ => by
    rw [nbi, Real.zero_rpow hr.ne']; ring
  rw [hz, sub_zero] at this
  rw [← this, add_sub_cancel_right, Real.Gamma_nat_eq_factorial, ← add_assoc]
  simp only [Real.rpow_natCast]

theorem nbi_sum_le {p r : ℝ} (h0 : 0 < p) (h1 : p ≤ 1) (hr : 0 < r) (k : ℕ) : (Finset.range k).sum (nbi p r) ≤ 1 := by
  cases k with
  | zero => simp
  | succ k =>
    have hone : (Finset.range (k + 1)).sum (nbi 1 r) = 1 := by
      rw [Finset.sum_range_succ']
      rw [Finset.sum_eq_zero fun i _ => by rw [nbi]; simp]
      simp [nbi, (Real.Gamma_pos_of_pos hr).ne']
    have hmono : MonotoneOn (fun p : ℝ => (Finset.range (k + 1)).sum (nbi p r)) (Set.Icc p 1) := by
      refine monotoneOn_of_deriv_nonneg (convex_Icc p 1) ?_ ?_ ?_
      · intro x hx
        exact (nbi_deriv hr (lt_of_lt_of_le h0 hx.1) k).continuousAt.continuousWithinAt
      · intro x hx
        rw [interior_Icc] at hx
        exact (nbi_deriv hr (h0.trans hx.1) k).differentiableAt.differentiableWithinAt
      · intro x hx
        rw [interior_Icc] at hx
        rw [(nbi_deriv hr (h0.trans hx.1) k).deriv]
        have a : 0 < Real.Gamma (r + k + 1) := Real.Gamma_pos_of_pos (by positivity)
        have b : 0 < Real.Gamma r := Real.Gamma_pos_of_pos hr
        have c : 0 ≤ 1 - x := by linarith [hx.2]
        have d : 0 ≤ x := (h0.trans hx.1).le
        positivity
    rw [← hone]
    exact hmono ⟨le_rfl, h1⟩ ⟨h1, le_rfl⟩ h1

theorem nbi_cdf {p r : ℝ} (h0 : 0 < p) (h1 : p ≤ 1) (hr : 0 < r) (k : ℕ) :
    NegBinomial.cdf (fin p) (fin r) k = fin ((Finset.range (k + 1)).sum (nbi p r)) := by
  have hk : (0 : ℝ) ≤ k := Nat.cast_nonneg k
  rw [NegBinomial.cdf, if_neg (by omega), ofInt, BetaI, if_neg]
  · congr 1
    push_cast
    exact nbi_integral h0.le hr k
  · push_cast
    rintro (h | h | h | h) <;> linarith

theorem nbi_pdf {p r : ℝ} (h0 : 0 < p) (h1 : p < 1) (hr : 0 < r) (k : ℕ) : NegBinomial.pdf (fin p) (fin r) k = fin (nbi p r k) := by
  have hk : (0 : ℝ) < ((k ! : ℕ) : ℝ) := Nat.cast_pos.2 (Nat.factorial_pos k)
  have hlg : ∀ y : ℝ, 0 < y → lnGamma (fin y) = fin (Real.log (Real.Gamma y)) := by
    intro y hy
    rw [lnGamma, if_neg, abs_of_pos (Real.Gamma_pos_of_pos hy)]
    rintro ⟨n, hn⟩
    have : (0 : ℝ) ≤ n := Nat.cast_nonneg n
    linarith
  have e1 : fin r + ofInt k = fin (r + k) := by simp [ofInt]
  have e2 : ofInt ((k : ℤ) + 1) = fin ((k : ℝ) + 1) := by simp [ofInt]
  have hg : 0 < Real.Gamma (r + k) := Real.Gamma_pos_of_pos (by positivity)
  have hg' : 0 < Real.Gamma r := Real.Gamma_pos_of_pos hr
  have hq : 0 < 1 + -p := by linarith
  rw [NegBinomial.pdf, if_neg (by omega), e1, e2, hlg _ (by positivity), hlg _ hr, lnGamma_succ, ln_fin h0, neg_fin, neg_fin, neg_fin, ln1p_fin hq, ofInt,
    fin_add, fin_add, fin_mul, fin_mul, fin_add, fin_add, exp_fin, nbi]
  congr 1
  rw [Int.cast_natCast, Real.exp_add, Real.exp_add, Real.exp_add, Real.exp_add, Real.exp_neg, Real.exp_neg, Real.exp_log hg, Real.exp_log hg',
    Real.exp_log hk, ← Real.rpow_def_of_pos h0, mul_comm (Real.log (1 + -p)), ← Real.log_pow, Real.exp_log (pow_pos hq k), ← sub_eq_add_neg]
  field_simp

theorem nbi_tableLoop {p r : ℝ} (h0 : 0 < p) (h1 : p ≤ 1) (hr : 0 < r) {K : ℕ} (hK : K < 2 ^ 31 - 1)
    (hF : 1 - 1 / 4096 ≤ (Finset.range (K + 1)).sum (nbi p r)) : ∀ fuel x : ℕ, fuel + x = 2 ^ 31 → x ≤ K + 1 →
    ∃ c, x ≤ c ∧ c ≤ K + 1 ∧ (x = 0 → 0 < c) ∧ NegBinomial.tableLoop (fin p) (fin r) fuel x (fin ((Finset.range x).sum (nbi p r))) =
      some (((List.range' x (c - x)).map fun k => fin ((Finset.range (k + 1)).sum (nbi p r))) ++ [fin 1]) := by
  have hlim : (1 : XR) - 1 / 4096 = fin (1 - 1 / 4096) := by
    rw [ofNat_fin, ofNat_fin, fin_div (by norm_num), fin_sub]; norm_num
  intro fuel
  induction fuel with
  | zero => intro x h1 h2; omega
  | succ n ih =>
    intro x hx hxK
    rw [NegBinomial.tableLoop, hlim]
    by_cases hc : (Finset.range x).sum (nbi p r) < 1 - 1 / 4096
    · rw [if_pos ((fin_lt _ _).2 hc)]
      have hxK' : x ≤ K := by
        by_contra h
        have : x = K + 1 := by omega
        subst this
        linarith
      obtain ⟨c, h1', h2, h3, h4⟩ := ih (x + 1) (by omega) (by omega)
      refine ⟨c, by omega, h2, fun _ => by omega, ?_⟩
      rw [nbi_cdf h0 h1 hr]
      push_cast at h4
      rw [h4, Option.map_some, show c - x = (c - (x + 1)) + 1 by omega, List.range'_succ]
      rfl
    · rw [if_neg (fun h => hc ((fin_lt _ _).1 h))]
      refine ⟨x, le_rfl, hxK, fun h => ?_, ?_⟩
      · subst h
        norm_num at hc
      · simp

theorem nbi_table {p r : ℝ} (h0 : 0 < p) (h1 : p ≤ 1) (hr : 0 < r) {K : ℕ} (hK : K < 2 ^ 31 - 1)
    (hF : 1 - 1 / 4096 ≤ (Finset.range (K + 1)).sum (nbi p r)) :
    ∃ c, 0 < c ∧ c < 2 ^ 31 ∧ NegBinomial.table (fin p) (fin r) = some ((tailTable (nbi p r) c).map fin) := by
  obtain ⟨c, -, h2, h3, h4⟩ := nbi_tableLoop h0 h1 hr hK hF (2 ^ 31) 0 (by norm_num) (by omega)
  refine ⟨c, h3 rfl, by omega, ?_⟩
  rw [NegBinomial.table]
  have h4' : NegBinomial.tableLoop (fin p) (fin r) (2 ^ 31) 0 (fin ((Finset.range 0).sum (nbi p r))) = _ := h4
  rw [Finset.sum_range_zero] at h4'
  rw [show (0 : XR) = fin 0 by simp, h4', tailTable, List.range_eq_range']
  simp

end Trng
