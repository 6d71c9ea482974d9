import Verif.Proofs.InvBeta
import Verif.Proofs.SmallSpecial
import Verif.Spec.BetaDists
import Mathlib.Analysis.SpecialFunctions.Log.Base

/-! Properties C76 (small special functions), C77 (incomplete Beta function) and C78 (its inverse). -/
namespace Trng.Props
open XR Special Set MeasureTheory BetaSeries

/-! ### C76 -/

/-- C76: `Beta(p, q)` is the integral of `t^(p-1) (1-t)^(q-1)` over (0,1), whichever branch computes it. -/
theorem C76_beta (L : Limits) {p q : ℝ} (hp : 0 < p) (hq : 0 < q) : Special.beta L (fin p) (fin q) = fin (Spec.beta p q) :=
  beta_fin L hp hq

/-- C76: outside its domain `Beta` is NaN. -/
theorem C76_beta_domain (L : Limits) (x y : XR) (h : x ≤ 0 ∨ y ≤ 0) : Special.beta L x y = nan := if_pos h

/-- C76: for positive `x` and a natural number `n` the Pochhammer function is the product x (x+1) ⋯ (x+n-1); for real `a` it is
Γ(x+a) / Γ(x).  Missing: negative `x` and `x + a`, see `C76_pochhammer_wrong`. -/
theorem C76_pochhammer_partial {x : ℝ} (hx : 0 < x) :
    (∀ n : ℕ, pochhammer (fin x) (fin n) = fin (∏ i ∈ Finset.range n, (x + i))) ∧
    (∀ a : ℝ, 0 < x + a → pochhammer (fin x) (fin a) = fin (Real.Gamma (x + a) / Real.Gamma x)) := by
  have h2 : ∀ a : ℝ, 0 < x + a → pochhammer (fin x) (fin a) = fin (Real.Gamma (x + a) / Real.Gamma x) := by
    intro a ha
    rw [pochhammer, fin_add, lnGamma_fin ha, lnGamma_fin hx, fin_sub, exp_fin, Real.exp_sub, Real.exp_log (Real.Gamma_pos_of_pos ha),
      Real.exp_log (Real.Gamma_pos_of_pos hx)]
  refine ⟨fun n => ?_, h2⟩
  rw [h2 n (by positivity)]
  congr 1
  rw [div_eq_iff (Real.Gamma_pos_of_pos hx).ne']
  induction n with
  | zero => simp
  | succ n ih =>
    rw [Finset.prod_range_succ, Nat.cast_succ, ← add_assoc, Real.Gamma_add_one (by positivity), ih]; ring

/-- C76 fails for negative arguments: the Pochhammer function (x)_1 is `x`, but `Pochhammer(-1/2, 1)` is +1/2. -/
theorem C76_pochhammer_wrong : pochhammer (fin (-(1 / 2))) (fin 1) = fin (1 / 2) := by
  rw [pochhammer, fin_add, SmallSpecial.lnGamma_neg_half, show (-(1 / 2) + 1 : ℝ) = 1 / 2 by norm_num, lnGamma_fin (by norm_num), Real.Gamma_one_half_eq, fin_sub,
    exp_fin, Real.exp_sub, Real.exp_log (by positivity), Real.exp_log (by positivity)]
  congr 1
  field_simp

/-- C76 fails for the logarithm with a base: `log(b, x)` is the product, not the quotient, of the logarithms; it is the
logarithm of `x` to the base `b` only for `x = 1`, `b = e` and `b = 1/e`. -/
theorem C76_log_wrong {b x : ℝ} (hb : 0 < b) (hx : 0 < x) (hb1 : b ≠ 1) :
    logBase (fin b) (fin x) = fin (Real.logb b x) ↔ x = 1 ∨ b = Real.exp 1 ∨ b = Real.exp (-1) := by
  have hlb : Real.log b ≠ 0 := Real.log_ne_zero_of_pos_of_ne_one hb hb1
  rw [logBase, ln_fin hb, ln_fin hx, fin_mul, fin_inj, Real.logb, eq_div_iff hlb]
  constructor
  · intro h
    have h' : Real.log x * ((Real.log b - 1) * (Real.log b + 1)) = 0 := by linarith
    rcases mul_eq_zero.1 h' with h1 | h1
    · exact Or.inl (Real.eq_one_of_pos_of_log_eq_zero hx h1)
    · rcases mul_eq_zero.1 h1 with h2 | h2
      · exact Or.inr (Or.inl (by rw [← sub_eq_zero.1 h2, Real.exp_log hb]))
      · exact Or.inr (Or.inr (by rw [← eq_neg_of_add_eq_zero_left h2, Real.exp_log hb]))
  · rintro (h | h | h)
    · rw [h]; simp
    · rw [h, Real.log_exp]; ring
    · rw [h, Real.log_exp]; ring

/-- `log(2, 8)` is not 3. -/
example : logBase (fin 2) (fin 8) ≠ fin 3 := by
  have h := C76_log_wrong (b := 2) (x := 8) (by norm_num) (by norm_num) (by norm_num)
  have e : Real.logb 2 8 = 3 := by
    rw [show (8 : ℝ) = 2 ^ (3 : ℝ) by norm_num, Real.logb_rpow (by norm_num) (by norm_num)]
  rw [e] at h
  rw [Ne, h]
  have h1 := Real.add_one_lt_exp (one_ne_zero (α := ℝ))
  have h2 : Real.exp (-1) < 1 := by rw [← Real.exp_zero]; exact Real.exp_lt_exp.2 (by norm_num)
  rintro (c | c | c) <;> linarith

/-- C76: `sqrt(r, x)` is the `r`-th root of a positive number. -/
theorem C76_root {r x : ℝ} (hr : r ≠ 0) (hx : 0 < x) : ∃ y : ℝ, root (fin r) (fin x) = fin y ∧ 0 < y ∧ y ^ r = x := by
  refine ⟨x ^ (1 / r), ?_, Real.rpow_pos_of_pos hx _, ?_⟩
  · rw [root, ofNat_fin, Nat.cast_one, fin_div hr, pow_fin hx]
  · rw [← Real.rpow_mul hx.le, one_div_mul_cancel hr, Real.rpow_one]

/-- C76: `mln1p(x)` is `x - ln(1+x)` with a relative error of at most the machine epsilon: although the difference suffers
from cancellation, its series does not. -/
theorem C76_mln1p (L : Limits) (hL1 : L.epsilon ≤ 1) (hd : 3 ≤ L.digits) (hL : 32⁻¹ ^ (L.digits - 2) ≤ L.epsilon) {x : ℝ} (hx : -1 < x) :
    ∃ y : ℝ, mln1p L (fin x) = fin y ∧ |y - (x - Real.log (1 + x))| ≤ L.epsilon * (x - Real.log (1 + x)) := by
  rcases lt_or_ge |x| (1 / 32) with h | h
  · exact SmallSpecial.mln1p_small L h hL1 hd hL
  · refine ⟨x - Real.log (1 + x), ?_, ?_⟩
    · rw [mln1p, if_pos]
      · rw [ln1p, ofNat_fin, Nat.cast_one, fin_add, ln_fin (by linarith), fin_sub]
      · simp only [ofNat_fin, abs_fin, Nat.cast_one, Nat.cast_ofNat]
        rw [fin_div (by norm_num), fin_le]; exact h
    · rw [sub_self, abs_zero]
      have := Real.log_le_sub_one_of_pos (by linarith : 0 < 1 + x)
      have he : 0 < L.epsilon := lt_of_lt_of_le (by positivity) hL
      exact mul_nonneg he.le (by linarith)

example : Limits.float.epsilon ≤ 1 ∧ 3 ≤ Limits.float.digits ∧ 32⁻¹ ^ (Limits.float.digits - 2) ≤ Limits.float.epsilon := by
  norm_num [Limits.float]
example : Limits.double.epsilon ≤ 1 ∧ 3 ≤ Limits.double.digits ∧ 32⁻¹ ^ (Limits.double.digits - 2) ≤ Limits.double.epsilon := by
  norm_num [Limits.double]
example : Limits.longDouble.epsilon ≤ 1 ∧ 3 ≤ Limits.longDouble.digits ∧ 32⁻¹ ^ (Limits.longDouble.digits - 2) ≤ Limits.longDouble.epsilon := by
  norm_num [Limits.longDouble]

/-! ### C77 -/

/-- C77: `Beta_I(x, p, q)` is the regularised incomplete Beta function with an error of at most 8 ε M times the smaller
tail that the series computes, where `M` bounds p, q, p/q and q/p; no overflow of the variable `s` occurs and the loop ends.  Missing:
parameters beyond 2^30 or with a ratio beyond 2^24. -/
theorem C77_accuracy_partial {L : Limits} {x p q M : ℝ} (he : 2⁻¹ ^ 63 ≤ L.epsilon) (hx : 0 ≤ x) (hx1 : x ≤ 1) (hp : 0 < p) (hq : 0 < q)
    (hr : p + q ≤ 2 ^ 24 * p) (hr' : p + q ≤ 2 ^ 24 * q) (hpq : p + q < 2 ^ 30)
    (h1 : p ≤ M) (h2 : q ≤ M) (h3 : p / q ≤ M) (h4 : q / p ≤ M) (hM : 8 * L.epsilon * M ≤ 1) :
    ∃ y : ℝ, betaI L (fin x) (fin p) (fin q) (fin (Spec.beta p q)) = some (fin y) ∧
      |y - Spec.regBeta x p q| ≤ 8 * L.epsilon * M * (if p < (p + q) * x then 1 - Spec.regBeta x p q else Spec.regBeta x p q) :=
  betaI_fin he hx hx1 hp hq hr hr' hpq h1 h2 h3 h4 hM

/-- For instance, in double precision the error is at most 2^-40 for all parameters from 1/16 to 32. -/
example {x p q : ℝ} (hx : 0 ≤ x) (hx1 : x ≤ 1) (hp : 1 / 16 ≤ p) (hq : 1 / 16 ≤ q) (hp1 : p ≤ 32) (hq1 : q ≤ 32) :
    ∃ y : ℝ, betaI .double (fin x) (fin p) (fin q) (fin (Spec.beta p q)) = some (fin y) ∧ |y - Spec.regBeta x p q| ≤ 2⁻¹ ^ 40 := by
  have a : p / q ≤ 512 := by rw [div_le_iff₀ (by linarith)]; linarith
  have b : q / p ≤ 512 := by rw [div_le_iff₀ (by linarith)]; linarith
  obtain ⟨y, e, h⟩ := C77_accuracy_partial (L := .double) (x := x) (p := p) (q := q) (M := 512) (by norm_num [Limits.double]) hx hx1 (by linarith) (by linarith)
    (by linarith) (by linarith) (by linarith) (by linarith) (by linarith) a b (by norm_num [Limits.double])
  refine ⟨y, e, h.trans ?_⟩
  have h0 := regBeta_nonneg hx hx1 (by linarith : 0 < p) (by linarith : 0 < q)
  have h1 := regBeta_le_one hx hx1 (by linarith : 0 < p) (by linarith : 0 < q)
  have h2 : (if p < (p + q) * x then 1 - Spec.regBeta x p q else Spec.regBeta x p q) ≤ 1 := by split_ifs <;> linarith
  have h3 : 8 * Limits.double.epsilon * 512 = 2⁻¹ ^ 40 := by norm_num [Limits.double]
  rw [h3]
  exact mul_le_of_le_one_right (by positivity) h2

/-- C77: the values at the ends are exact. -/
theorem C77_ends {L : Limits} {p q : ℝ} (he : 2⁻¹ ^ 63 ≤ L.epsilon) (he1 : L.epsilon ≤ 2⁻¹ ^ 23) (hp : 1 / 16 ≤ p) (hq : 1 / 16 ≤ q) (hp1 : p ≤ 2 ^ 14) (hq1 : q ≤ 2 ^ 14) :
    betaI L (fin 0) (fin p) (fin q) (fin (Spec.beta p q)) = some (fin 0) ∧ betaI L (fin 1) (fin p) (fin q) (fin (Spec.beta p q)) = some (fin 1) := by
  have a : p / q ≤ 2 ^ 18 := by rw [div_le_iff₀ (by linarith)]; linarith
  have b : q / p ≤ 2 ^ 18 := by rw [div_le_iff₀ (by linarith)]; linarith
  have hp0 : 0 < p := by linarith
  have hq0 : 0 < q := by linarith
  have hM : 8 * L.epsilon * 2 ^ 18 ≤ 1 := by
    have : (2 : ℝ)⁻¹ ^ 23 = 1 / 8388608 := by norm_num
    rw [this] at he1
    linarith
  obtain ⟨y, e, h⟩ := C77_accuracy_partial (L := L) (x := 0) (p := p) (q := q) (M := 2 ^ 18) he le_rfl zero_le_one hp0 hq0
    (by linarith) (by linarith) (by linarith) (by linarith) (by linarith) a b hM
  obtain ⟨z, e', h'⟩ := C77_accuracy_partial (L := L) (x := 1) (p := p) (q := q) (M := 2 ^ 18) he zero_le_one le_rfl hp0 hq0
    (by linarith) (by linarith) (by linarith) (by linarith) (by linarith) a b hM
  rw [if_neg (by linarith), regBeta_zero, mul_zero] at h
  rw [if_pos (by linarith), regBeta_one hp0 hq0, sub_self, mul_zero] at h'
  rw [e, e', sub_eq_zero.1 (abs_nonpos_iff.1 h), sub_eq_zero.1 (abs_nonpos_iff.1 h')]
  exact ⟨rfl, rfl⟩

example : (2⁻¹ ^ 63 : ℝ) ≤ Limits.float.epsilon ∧ Limits.float.epsilon ≤ 2⁻¹ ^ 23 ∧ (2⁻¹ ^ 63 : ℝ) ≤ Limits.longDouble.epsilon ∧ Limits.longDouble.epsilon ≤ 2⁻¹ ^ 23 := by
  norm_num [Limits.float, Limits.longDouble]

/-- C77: outside its domain `Beta_I` is NaN. -/
theorem C77_domain (L : Limits) (x p q norm : XR) (h : p ≤ 0 ∨ q ≤ 0 ∨ x < 0 ∨ 1 < x) : betaI L x p q norm = some nan := if_pos h

/-- C77 fails for the argument NaN: it passes all checks, and NaN is converted to `int`, which is undefined behaviour. -/
theorem C77_nan_wrong (L : Limits) {p q : ℝ} (hp : 0 < p) (hq : 0 < q) (norm : XR) : betaI L nan (fin p) (fin q) norm = none := by
  rw [betaI, if_neg (by simp [hp, hq]), if_neg (by simp), betaSeries]
  simp [toInt]

/-! ### C78 -/

/-- C78: without rounding, `inv_Beta_I` ends with a number in [0,1], for all parameters and whatever numbers its
approximation of `Beta_I` returns. -/
theorem C78_range {L : Limits} {BI : BetaFun} {u p q N : ℝ} (hp : 0 < p) (hq : 0 < q) (hN : 0 < N)
    (hBI : ∀ y : ℝ, 0 < y → y < 1 → ∃ b : ℝ, BI (fin y) (fin p) (fin q) (fin N) = some (fin b)) (h0 : 0 < u) (h1 : u < 1) :
    ∃ r : ℝ, invBetaI L id BI (fin u) (fin p) (fin q) (fin N) = some (fin r) ∧ 0 ≤ r ∧ r ≤ 1 :=
  invBetaI_range hp hq hN hBI h0 h1

/-- The library's own `Beta_I` is such an approximation. -/
example {u p q : ℝ} (hp : 1 / 16 ≤ p) (hq : 1 / 16 ≤ q) (hp1 : p ≤ 32) (hq1 : q ≤ 32) (h0 : 0 < u) (h1 : u < 1) :
    ∃ r : ℝ, invBetaI .double id (betaI .double) (fin u) (fin p) (fin q) (fin (Spec.beta p q)) = some (fin r) ∧ 0 ≤ r ∧ r ≤ 1 := by
  have hp0 : 0 < p := by linarith
  have hq0 : 0 < q := by linarith
  refine C78_range hp0 hq0 (beta_pos hp0 hq0) (fun y h0 h1 => ?_) h0 h1
  have a : p / q ≤ 512 := by rw [div_le_iff₀ (by linarith)]; linarith
  have b : q / p ≤ 512 := by rw [div_le_iff₀ (by linarith)]; linarith
  obtain ⟨z, e, _⟩ := C77_accuracy_partial (L := .double) (x := y) (p := p) (q := q) (M := 512) (by norm_num [Limits.double]) h0.le h1.le hp0 hq0
    (by linarith) (by linarith) (by linarith) (by linarith) (by linarith) a b (by norm_num [Limits.double])
  exact ⟨z, e⟩

/-- C78 on the side of the longer tail: for p, q ≥ 1 and an exact `Beta_I`, `Beta_I(inv_Beta_I(u)) = u` up to twice the
machine epsilon (or 2^-digits), if `q ≤ p` for the probabilities below the starting point of the iteration, if `p ≤ q` for those above it.  Missing: the other
side, and parameters below 1. -/
theorem C78_inverse_partial {L : Limits} {rnd : XR → XR} {BI : BetaFun} {u p q : ℝ} (hp : 1 ≤ p) (hq : 1 ≤ q) (hBI : Spec.IsBetaI BI p q)
    (he : 0 ≤ L.epsilon) (h0 : 0 < u) (h1 : u < 1)
    (hside : (q ≤ p ∧ u ≤ Spec.regBeta ((3 * p - 1) / (3 * p + 3 * q - 2)) p q) ∨ (p ≤ q ∧ Spec.regBeta ((3 * p - 1) / (3 * p + 3 * q - 2)) p q ≤ u)) :
    ∃ y : ℝ, invBetaI L rnd BI (fin u) (fin p) (fin q) (fin (Spec.beta p q)) = some (fin y) ∧ 0 ≤ y ∧ y ≤ 1 ∧
      |Spec.regBeta y p q - u| ≤ max (2⁻¹ ^ L.digits) (2 * L.epsilon) := by
  rcases hside with ⟨a, b⟩ | ⟨a, b⟩
  · obtain ⟨y, e, y0, y1, h, _⟩ := invBetaI_low (rnd := rnd) hp hq hBI he h0 h1 a b
    exact ⟨y, e, y0, y1, h⟩
  · obtain ⟨y, e, y0, y1, h, _⟩ := invBetaI_high (rnd := rnd) hp hq hBI he h0 h1 a b
    exact ⟨y, e, y0, y1, h⟩

/-- C78: for p = q ≥ 1 and an exact `Beta_I`, `inv_Beta_I` inverts it for every probability. -/
theorem C78_symmetric {L : Limits} {rnd : XR → XR} {BI : BetaFun} {p : ℝ} (hp : 1 ≤ p) (hBI : Spec.IsBetaI BI p p) (he : 0 < L.epsilon) (he1 : L.epsilon < 1 / 2) :
    Spec.InvertsBeta (invBetaI L rnd BI) p p (max (2⁻¹ ^ L.digits) (2 * L.epsilon)) L.epsilon := by
  intro u h0 h1
  have hp0 : 0 < p := by linarith
  rcases lt_or_ge u L.epsilon with c | c
  · refine ⟨0, ?_, ?_, fun _ => rfl, fun h => by linarith, fun h => by linarith⟩
    · rw [invBetaI, if_pos (by simpa using c)]; simp
    · rw [regBeta_zero, zero_sub, abs_neg, abs_of_nonneg h0]
      exact le_trans (by linarith) (le_max_right _ _)
  · rcases lt_or_ge (1 - L.epsilon) u with c' | c'
    · refine ⟨1, ?_, ?_, fun h => by linarith, fun _ => rfl, fun _ h => by linarith⟩
      · rw [invBetaI, if_neg (by simpa using c), if_pos]
        · simp
        · simp only [ofNat_fin, Nat.cast_one, fin_sub, fin_lt]; linarith
      · rw [regBeta_one hp0 hp0, abs_of_nonneg (by linarith)]
        exact le_trans (by linarith) (le_max_right _ _)
    · rcases le_total u (Spec.regBeta ((3 * p - 1) / (3 * p + 3 * p - 2)) p p) with h | h
      · obtain ⟨y, e, _, _, hq, hy⟩ := invBetaI_low (rnd := rnd) hp hp hBI he.le (by linarith) (by linarith) le_rfl h
        exact ⟨y, e, hq, fun h => by linarith, fun h => by linarith, hy⟩
      · obtain ⟨y, e, _, _, hq, hy⟩ := invBetaI_high (rnd := rnd) hp hp hBI he.le (by linarith) (by linarith) le_rfl h
        exact ⟨y, e, hq, fun h => by linarith, fun h => by linarith, hy⟩

/-- An exact `Beta_I` exists, and the errors of the three number types are small. -/
noncomputable example : ∃ BI : BetaFun, ∀ p q : ℝ, 0 < p → 0 < q → Spec.IsBetaI BI p q :=
  ⟨fun x p q _ => match x, p, q with | fin x, fin p, fin q => some (fin (Spec.regBeta x p q)) | _, _, _ => none, fun _ _ _ _ _ _ _ => rfl⟩
example : max (2⁻¹ ^ Limits.double.digits) (2 * Limits.double.epsilon) = 2⁻¹ ^ 51 := by norm_num [Limits.double]

/-- C78 fails with rounding: if a number within 2^-54 of 1 is rounded to 1 (as the nearest double is), the start of the iteration
can be 1, where the derivative is infinite; the step 0 never leaves the end of the interval, and the loop that shortens it does not end. -/
theorem C78_hang_wrong {rnd : XR → XR} (hrnd : ∀ z : ℝ, 0 ≤ z → z ≤ 2⁻¹ ^ 54 → rnd (fin (1 - z)) = fin 1) {BI : BetaFun} (hBI : Spec.IsBetaI BI (1 / 4) (1 / 4))
    {u : ℝ} (hu : 1 - 2⁻¹ ^ 15 ≤ u) (hu1 : u ≤ 1 - 2⁻¹ ^ 51) :
    invBetaI .double rnd BI (fin u) (fin (1 / 4)) (fin (1 / 4)) (fin (Spec.beta (1 / 4) (1 / 4))) = none := by
  have b15 : (2 : ℝ)⁻¹ ^ 15 = 1 / 32768 := by norm_num
  have b51 : (2 : ℝ)⁻¹ ^ 51 = 1 / 2251799813685248 := by norm_num
  rw [b15] at hu
  rw [b51] at hu1
  have hq : (0 : ℝ) < 1 / 4 := by norm_num
  obtain ⟨w, t, hw, ht, e⟩ := guess_small hq hq (by norm_num) (u := u) (by linarith) (by linarith) rnd
  have hP : (0 : ℝ) < (1 / 4 / (1 / 4 + 1 / 4)) ^ ((1 : ℝ) / 4) := Real.rpow_pos_of_pos (by norm_num) _
  have hP1 : ((1 : ℝ) / 4 / (1 / 4 + 1 / 4)) ^ ((1 : ℝ) / 4) ≤ 1 := Real.rpow_le_one (by norm_num) (by norm_num) (by norm_num)
  have hw0 : 0 < w := by rw [hw]; positivity
  have hw8 : w ≤ 8 := by rw [hw]; linarith
  have ht2 : t = 1 / 2 := by
    rw [ht, hw]; field_simp; norm_num
  have hz0 : 0 ≤ 1 / 4 * w * (1 - u) := mul_nonneg (by positivity) (by linarith)
  have hz : 1 / 4 * w * (1 - u) ≤ 2⁻¹ ^ 14 := by
    have : (2 : ℝ)⁻¹ ^ 14 = 1 / 16384 := by norm_num
    rw [this]; nlinarith
  have hpow : (1 / 4 * w * (1 - u)) ^ (1 / (1 / 4 : ℝ)) ≤ 2⁻¹ ^ 54 := by
    rw [show (1 / (1 / 4) : ℝ) = ((4 : ℕ) : ℝ) by norm_num, Real.rpow_natCast]
    refine (pow_le_pow_left₀ hz0 hz 4).trans ?_
    norm_num
  rw [invBetaI, if_neg, if_neg, e, if_neg (by rw [ht2]; linarith), hrnd _ (Real.rpow_nonneg hz0 _) hpow]
  · refine loop_one (L := .double) (beta_pos hq hq) (by norm_num) ?_ ?_ 52
    · have := hBI 1 zero_le_one le_rfl
      rwa [regBeta_one hq hq] at this
    · have : Limits.double.epsilon = 1 / 4503599627370496 := by norm_num [Limits.double]
      rw [this]; linarith
  · simp only [ofNat_fin, Nat.cast_one, fin_sub, fin_lt, Limits.double]
    have : (2 : ℝ)⁻¹ ^ 52 = 1 / 4503599627370496 := by norm_num
    rw [this]; linarith
  · simp only [fin_lt, Limits.double]
    have : (2 : ℝ)⁻¹ ^ 52 = 1 / 4503599627370496 := by norm_num
    rw [this]; linarith

open Classical in
/-- Such a rounding exists. -/
noncomputable example : ∃ rnd : XR → XR, ∀ z : ℝ, 0 ≤ z → z ≤ 2⁻¹ ^ 54 → rnd (fin (1 - z)) = fin 1 :=
  ⟨fun x => match x with | fin y => if 1 - 2⁻¹ ^ 54 ≤ y ∧ y ≤ 1 then fin 1 else fin y | x => x, fun z h0 h1 => if_pos ⟨by linarith, by linarith⟩⟩

end Trng.Props
