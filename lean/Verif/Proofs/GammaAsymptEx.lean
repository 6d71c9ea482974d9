import Verif.Proofs.GammaAsymptErr
import Mathlib.Algebra.Polynomial.Roots
import Mathlib.RingTheory.PowerSeries.Derivative

/-! The parameters where a coefficient of the correction vanishes, and the exact values of the coefficients. -/
namespace Trng.Temme
open Set Special XR

section
open Polynomial

/-- the loop over the coefficients as polynomials in `1/a` -/
noncomputable def betaP (d : ℕ → ℝ) : ℕ → List ℝ[X] → List ℝ[X]
  | 0, l => l
  | i + 1, l => betaP d i ((l.getD 1 0 * C ((i + 2 : ℕ) : ℝ) * X + C (d (i + 1))) :: l)

theorem betaP_eval (a : ℝ) (d : ℕ → ℝ) : ∀ (k : ℕ) (l : List ℝ[X]),
    (betaP d k l).map (fun p => p.eval a⁻¹) = betaG a d k (l.map fun p => p.eval a⁻¹)
  | 0, l => rfl
  | i + 1, l => by
    rw [betaP, betaG, betaP_eval a d i]
    congr 1
    rw [List.map_cons]
    congr 1
    have : (l.map fun p => p.eval a⁻¹).getD 1 0 = (l.getD 1 0).eval a⁻¹ := by
      simp only [List.getD_eq_getElem?_getD, List.getElem?_map]
      cases l[1]? <;> simp
    rw [this]
    simp only [eval_add, eval_mul, eval_C, eval_X]
    rw [div_eq_mul_inv]

theorem betaP_ne {d : ℕ → ℝ} : ∀ (k : ℕ) (l : List ℝ[X]), (∀ i < k, d (i + 1) ≠ 0) → (∀ p ∈ l, p ≠ 0) → ∀ p ∈ betaP d k l, p ≠ 0
  | 0, l, _, h => h
  | i + 1, l, hd, h => by
    rw [betaP]
    refine betaP_ne i _ (fun j hj => hd j (by omega)) fun p hp => ?_
    rcases List.mem_cons.1 hp with rfl | hp
    · intro h0
      have := congrArg (fun p => p.coeff 0) h0
      simp at this
      exact hd i (by omega) this
    · exact h p hp

theorem dR_ne {i : ℕ} (hi : i < 50) : dR i ≠ 0 := by
  have : ∀ i < 50, asymptCoeffs.getD i 0 ≠ 0 := by
    intro i hi
    exact of_decide_eq_true (all_range (n := 50) (P := fun i => decide (asymptCoeffs.getD i 0 ≠ 0)) (by decide +kernel) i hi)
  rw [dR]
  exact_mod_cast this i hi

theorem vanishing_finite {n : ℕ} (h2 : 2 ≤ n) (h50 : n < 50) : {a : ℝ | ∃ b ∈ Bn a n, b = 0}.Finite := by
  obtain ⟨l, hl⟩ : ∃ l, l = betaP dR (n - 2) [C (dR (n - 1)), C (dR n)] := ⟨_, rfl⟩
  have hne : ∀ p ∈ l, p ≠ 0 := by
    rw [hl]
    refine betaP_ne _ _ (fun i hi => dR_ne (by omega)) fun p hp => ?_
    simp only [List.mem_cons, List.not_mem_nil, or_false] at hp
    rcases hp with rfl | rfl
    · exact C_ne_zero.2 (dR_ne (by omega))
    · exact C_ne_zero.2 (dR_ne (by omega))
  have heval : ∀ a : ℝ, Bn a n = l.map fun p => p.eval a⁻¹ := by
    intro a
    rw [hl, betaP_eval, Bn]
    simp
  have hfin : (⋃ p ∈ {p | p ∈ l}, (fun a : ℝ => a⁻¹) ⁻¹' {r | p.IsRoot r}).Finite := by
    refine Set.Finite.biUnion (List.finite_toSet l) fun p hp => ?_
    refine Set.Finite.preimage inv_injective.injOn ?_
    exact Polynomial.finite_setOfPred_isRoot (hne p hp)
  refine hfin.subset fun a ha => ?_
  obtain ⟨b, hb, h0⟩ := ha
  rw [heval a, List.mem_map] at hb
  obtain ⟨p, hp, hpe⟩ := hb
  refine mem_biUnion (show p ∈ {p | p ∈ l} from hp) ?_
  show p.IsRoot a⁻¹
  rw [IsRoot.def, hpe, h0]

end

theorem mem_asymptBeta {L : Limits} {a : ℝ} (ha : a ≠ 0) (h2 : 2 ≤ asymptLen L) (h50 : asymptLen L < 50) :
    (∃ b ∈ asymptBeta L (fin a), b = 0) ↔ ∃ b ∈ Bn a (asymptLen L), b = 0 := by
  rw [asymptBeta_eq ha h2 h50]
  have h0 : (0 : XR) = fin 0 := by simp
  constructor
  · rintro ⟨b, hb, rfl⟩
    obtain ⟨c, hc, hc0⟩ := List.mem_map.1 hb
    rw [h0] at hc0
    exact ⟨c, hc, (fin_inj _ _).1 hc0⟩
  · rintro ⟨b, hb, rfl⟩
    exact ⟨0, List.mem_map.2 ⟨0, hb, h0.symm⟩, rfl⟩

theorem getD_ne_of {a : ℝ} {n : ℕ} (h2 : 2 ≤ n) (h : ¬∃ b ∈ Bn a n, b = 0) : ∀ i < n, (Bn a n).getD i 0 ≠ 0 := by
  intro i hi h0
  have hl : (Bn a n).length = n := by rw [Bn, betaG_length]; simp; omega
  rw [List.getD_eq_getElem?_getD, List.getElem?_eq_getElem (by rw [hl]; exact hi)] at h0
  exact h ⟨_, List.getElem_mem _, h0⟩

theorem not_vanishing {a : ℝ} {a0 : ℚ} (h0 : 0 < a0) (ha : (a0 : ℝ) ≤ a) {n : ℕ} (h2 : 2 ≤ n) (h50 : n < 50)
    (hdom : ∀ i < n, (Bq a0 n).getD (i + 2) 0 * (i + 2 : ℕ) / a0 < dQ (i + 1)) : ¬∃ b ∈ Bn a n, b = 0 := by
  rintro ⟨b, hb, h⟩
  have hl : (Bn a n).length = n := by rw [Bn, betaG_length]; simp; omega
  obtain ⟨i, hi, rfl⟩ := List.mem_iff_getElem.1 hb
  refine Bn_ne_zero h0 ha h2 h50 (by rw [← hl]; exact hi) (hdom i (by rw [← hl]; exact hi)) ?_
  rw [List.getD_eq_getElem?_getD, List.getElem?_eq_getElem hi]
  exact h

set_option maxRecDepth 100000

theorem not_vanishing_float {a : ℝ} (ha : 6 ≤ a) : ¬∃ b ∈ Bn a 11, b = 0 :=
  not_vanishing (a0 := 6) (by norm_num) (by exact_mod_cast ha) (by norm_num) (by norm_num) fun i hi =>
    of_decide_eq_true (all_range (n := 11) (P := fun i => decide ((Bq 6 11).getD (i + 2) 0 * (i + 2 : ℕ) / 6 < dQ (i + 1))) (by decide +kernel) i hi)
theorem not_vanishing_double {a : ℝ} (ha : 40 ≤ a) : ¬∃ b ∈ Bn a 26, b = 0 :=
  not_vanishing (a0 := 40) (by norm_num) (by exact_mod_cast ha) (by norm_num) (by norm_num) fun i hi =>
    of_decide_eq_true (all_range (n := 26) (P := fun i => decide ((Bq 40 26).getD (i + 2) 0 * (i + 2 : ℕ) / 40 < dQ (i + 1))) (by decide +kernel) i hi)
theorem not_vanishing_long {a : ℝ} (ha : 55 ≤ a) : ¬∃ b ∈ Bn a 31, b = 0 :=
  not_vanishing (a0 := 55) (by norm_num) (by exact_mod_cast ha) (by norm_num) (by norm_num) fun i hi =>
    of_decide_eq_true (all_range (n := 31) (P := fun i => decide ((Bq 55 31).getD (i + 2) 0 * (i + 2 : ℕ) / 55 < dQ (i + 1))) (by decide +kernel) i hi)

/-! ### The exact coefficients -/

/-- the coefficients of the antiderivative of `f + s`, from those of `f` -/
def pOf (l : List ℚ) (j : ℕ) : ℚ := l.getD (j - 1) 0 / j + if j = 2 then 1 / 2 else 0

/-- `Σ_{i=1}^{m} l_i p_(k-i)` -/
def conv (l : List ℚ) (k : ℕ) : ℕ → ℚ
  | 0 => 0
  | m + 1 => conv l k m + l.getD (m + 1) 0 * pOf l (k - (m + 1))

/-- the coefficients up to the index `n` -/
def exl : ℕ → List ℚ
  | 0 => [1]
  | n + 1 => let l := exl n
    l ++ [-(conv l (n + 2) n + if n = 0 then 1 / 2 else 0) / (1 + 1 / (n + 2 : ℕ))]

theorem exl_length : ∀ n, (exl n).length = n + 1
  | 0 => rfl
  | n + 1 => by rw [exl]; simp [exl_length n]

theorem exl_getD_succ {n i : ℕ} (hi : i ≤ n) : (exl (n + 1)).getD i 0 = (exl n).getD i 0 := by
  rw [exl]
  simp only [List.getD_eq_getElem?_getD]
  rw [List.getElem?_append_left (by rw [exl_length]; omega)]

theorem exl_getD {n i : ℕ} (hi : i ≤ n) : (exl n).getD i 0 = (exl i).getD i 0 := by
  induction n with
  | zero => obtain rfl : i = 0 := by omega
            rfl
  | succ n ih =>
    rcases Nat.lt_or_ge n i with h | h
    · obtain rfl : i = n + 1 := by omega
      rfl
    · rw [exl_getD_succ h, ih h]

theorem exl_last (n : ℕ) : (exl (n + 1)).getD (n + 1) 0 = -(conv (exl n) (n + 2) n + if n = 0 then 1 / 2 else 0) / (1 + 1 / (n + 2 : ℕ)) := by
  conv_lhs => rw [exl]
  simp only [List.getD_eq_getElem?_getD]
  rw [List.getElem?_append_right (by rw [exl_length])]
  simp [exl_length]

/-- the coefficients of the antiderivative of `f + s` -/
def mOf (F : ℕ → ℚ) : ℕ → ℚ
  | 0 => 0
  | j + 1 => F j / (j + 1 : ℕ) + if j = 1 then 1 / 2 else 0

theorem conv_eq {F : ℕ → ℚ} {n k : ℕ} (hF : ∀ i ≤ n, (exl n).getD i 0 = F i) (hk : k = n + 2) : ∀ m, m ≤ n →
    conv (exl n) k m = ∑ i ∈ Finset.range m, F (i + 1) * mOf F (k - (i + 1))
  | 0, _ => rfl
  | m + 1, hm => by
    rw [conv, conv_eq hF hk m (by omega), Finset.sum_range_succ, hF _ hm]
    congr 2
    obtain ⟨j, hj⟩ : ∃ j, k - (m + 1) = j + 1 := ⟨k - (m + 1) - 1, by omega⟩
    rw [hj, pOf, mOf, hF _ (by omega)]
    simp

/-- the equation for the coefficient `n + 1` -/
theorem coeff_iff {F : ℕ → ℚ} (h0 : F 0 = 1) {n : ℕ} (hF : ∀ i ≤ n, (exl n).getD i 0 = F i) :
    (∑ p ∈ Finset.antidiagonal (n + 2), F p.1 * mOf F p.2 = 0) ↔ F (n + 1) = (exl (n + 1)).getD (n + 1) 0 := by
  rw [exl_last, conv_eq hF rfl n le_rfl, Finset.Nat.sum_antidiagonal_eq_sum_range_succ (fun i j => F i * mOf F j), Finset.sum_range_succ,
    Finset.sum_range_succ, Finset.sum_range_succ', eq_div_iff (by positivity)]
  have e1 : mOf F (n + 2 - 0) = F (n + 1) / (n + 2 : ℕ) + if n = 0 then 1 / 2 else 0 := by
    show mOf F (n + 1 + 1) = _
    rw [mOf]; push_cast; simp [add_assoc]; norm_num
  have e2 : mOf F (n + 2 - (n + 1)) = 1 := by
    rw [show n + 2 - (n + 1) = 0 + 1 by omega, mOf, h0]; simp
  have e3 : mOf F (n + 2 - (n + 2)) = 0 := by rw [Nat.sub_self]; rfl
  rw [e1, e2, e3, h0]
  constructor
  · intro h; push_cast at h ⊢; linear_combination h
  · intro h; push_cast at h ⊢; linear_combination h

open PowerSeries in
/-- The power series of `s ↦ s/μ(s)`, where `μ − ln(1 + μ) = s²/2`, has the coefficients `exl`. -/
theorem series_unique {f μ : PowerSeries ℚ} (h0 : constantCoeff μ = 0) (h1 : coeff 1 μ = 1) (hf : f * μ = X)
    (hd : d⁄dX ℚ μ * μ = X * (1 + μ)) (n : ℕ) : ∀ i ≤ n, (exl n).getD i 0 = coeff i f := by
  have hμ : μ ≠ 0 := by rintro rfl; simp at h1
  have hd' : d⁄dX ℚ μ = f + X := by
    refine mul_right_cancel₀ hμ ?_
    rw [hd, ← hf]; ring
  have hm : ∀ j, coeff j μ = mOf (fun i => coeff i f) j := by
    intro j
    cases j with
    | zero => rw [mOf, coeff_zero_eq_constantCoeff_apply, h0]
    | succ j =>
      have := congrArg (coeff j) hd'
      rw [coeff_derivative, map_add, coeff_X] at this
      have hj : ((j : ℚ) + 1) ≠ 0 := by positivity
      rw [mOf, eq_div_of_mul_eq hj this]
      push_cast
      rw [add_div]
      congr 1
      by_cases h : j = 1
      · subst h; norm_num
      · simp [h]
  have hc : ∀ k, ∑ p ∈ Finset.antidiagonal k, coeff p.1 f * mOf (fun i => coeff i f) p.2 = if k = 1 then 1 else 0 := by
    intro k
    have := congrArg (coeff k) hf
    rw [coeff_mul, coeff_X] at this
    rw [← this]
    exact Finset.sum_congr rfl fun p _ => by rw [hm]
  have hf0 : coeff 0 f = 1 := by
    have := hm 1
    rw [h1, mOf] at this
    simp at this
    rw [coeff_zero_eq_constantCoeff_apply]; exact this.symm
  induction n with
  | zero =>
    intro i hi
    obtain rfl : i = 0 := by omega
    rw [hf0]; rfl
  | succ n ih =>
    intro i hi
    rcases Nat.lt_or_ge n i with h | h
    · obtain rfl : i = n + 1 := by omega
      exact ((coeff_iff (F := fun i => coeff i f) hf0 ih).1 (by rw [hc]; simp)).symm
    · rw [exl_getD_succ h, ih i h]

open PowerSeries in
theorem series_exists : ∃ f μ : PowerSeries ℚ, constantCoeff μ = 0 ∧ coeff 1 μ = 1 ∧ f * μ = X ∧ d⁄dX ℚ μ * μ = X * (1 + μ) := by
  obtain ⟨F, hF⟩ : ∃ F : ℕ → ℚ, F = fun i => (exl i).getD i 0 := ⟨_, rfl⟩
  have h0 : F 0 = 1 := by rw [hF]; rfl
  have hfm : PowerSeries.mk F * PowerSeries.mk (mOf F) = X := by
    ext k
    rw [coeff_mul, coeff_X]
    simp only [coeff_mk]
    match k with
    | 0 => simp [mOf]
    | 1 => rw [Finset.Nat.sum_antidiagonal_eq_sum_range_succ (fun i j => F i * mOf F j)]; simp [Finset.sum_range_succ, mOf, h0]
    | n + 2 =>
      rw [(coeff_iff h0 fun i hi => by rw [exl_getD hi, hF]).2 (by rw [hF])]
      simp
  refine ⟨PowerSeries.mk F, PowerSeries.mk (mOf F), by simp [← coeff_zero_eq_constantCoeff_apply, mOf], by simp [mOf, h0], hfm, ?_⟩
  have hd : d⁄dX ℚ (PowerSeries.mk (mOf F)) = PowerSeries.mk F + X := by
    ext j
    rw [coeff_derivative, map_add, coeff_X, coeff_mk, coeff_mk, mOf, add_mul]
    push_cast
    rw [div_mul_cancel₀ _ (by positivity)]
    congr 1
    by_cases h : j = 1
    · subst h; norm_num
    · simp [h]
  rw [hd, add_mul, hfm]; ring

theorem literals_check : ∀ i < 50, |asymptCoeffs.getD i 0 - (exl 49).getD i 0| ≤ |(exl 49).getD i 0| / 10 ^ 36 := by
  intro i hi
  exact of_decide_eq_true (all_range (n := 50) (P := fun i => decide (|asymptCoeffs.getD i 0 - (exl 49).getD i 0| ≤ |(exl 49).getD i 0| / 10 ^ 36))
    (by decide +kernel) i hi)

end Trng.Temme
