import Verif.Model.Special
import Verif.Proofs.Continuous
import Mathlib.Analysis.SpecialFunctions.Integrals.Basic
import Mathlib.Analysis.SpecialFunctions.Integrability.Basic

/-! The series of `Beta_I`: what is left after each turn of the loop is an integral. -/
namespace Trng.BetaSeries
open Set MeasureTheory

/-- The incomplete Beta function, not normalised. -/
noncomputable def Bx (x p q : ℝ) : ℝ := ∫ t in (0 : ℝ)..x, t ^ (p - 1) * (1 - t) ^ (q - 1)

variable {x p q : ℝ}

theorem cont_one_sub (hx : x < 1) (c : ℝ) : ContinuousOn (fun t : ℝ => (1 - t) ^ c) (Icc 0 x) := by
  intro t ht
  have h1 : (0 : ℝ) < 1 - t := by linarith [ht.2]
  exact ((continuousAt_const.sub continuousAt_id).rpow_const (Or.inl h1.ne')).continuousWithinAt

theorem integrable (h0 : 0 ≤ x) (hx : x < 1) (hp : 0 < p) :
    IntervalIntegrable (fun t : ℝ => t ^ (p - 1) * (1 - t) ^ (q - 1)) volume 0 x := by
  have h := intervalIntegral.intervalIntegrable_rpow' (a := 0) (b := x) (r := p - 1) (by linarith)
  refine h.mul_continuousOn ?_
  rw [uIcc_of_le h0]
  exact cont_one_sub hx _

/-- Integration by parts that lowers the second parameter. -/
theorem ibp1 (h0 : 0 < x) (hx : x < 1) (hp : 0 < p) :
    p * Bx x p q = x ^ p * (1 - x) ^ (q - 1) + (q - 1) * Bx x (p + 1) (q - 1) := by
  have hd : ∀ t ∈ Ioo 0 x, HasDerivAt (fun t : ℝ => t ^ p * (1 - t) ^ (q - 1))
      (p * (t ^ (p - 1) * (1 - t) ^ (q - 1)) - (q - 1) * (t ^ (p + 1 - 1) * (1 - t) ^ (q - 1 - 1))) t := by
    intro t ht
    have h1 : (1 : ℝ) - t ≠ 0 := by linarith [ht.2]
    have a := Real.hasDerivAt_rpow_const (x := t) (p := p) (Or.inl ht.1.ne')
    have b := ((hasDerivAt_const t (1 : ℝ)).sub (hasDerivAt_id t)).rpow_const (p := q - 1) (Or.inl h1)
    refine (a.mul b).congr_deriv ?_
    simp only [id, Pi.sub_apply]
    rw [show p + 1 - 1 = p by ring]; ring
  have hc : ContinuousOn (fun t : ℝ => t ^ p * (1 - t) ^ (q - 1)) (Icc 0 x) :=
    (Real.continuous_rpow_const hp.le).continuousOn.mul (cont_one_sub hx _)
  have hi := (integrable h0.le hx hp (q := q)).const_mul p
  have hj := (integrable h0.le hx (by linarith : 0 < p + 1) (q := q - 1)).const_mul (q - 1)
  have e := intervalIntegral.integral_eq_sub_of_hasDerivAt_of_le h0.le hc hd (hi.sub hj)
  rw [intervalIntegral.integral_sub hi hj, intervalIntegral.integral_const_mul, intervalIntegral.integral_const_mul,
    Real.zero_rpow hp.ne', zero_mul, sub_zero] at e
  simp only [Bx]; linarith

/-- Integration by parts that keeps the second parameter. -/
theorem ibp2 (h0 : 0 < x) (hx : x < 1) (hp : 0 < p) :
    p * Bx x p q = x ^ p * (1 - x) ^ q + (p + q) * Bx x (p + 1) q := by
  have hd : ∀ t ∈ Ioo 0 x, HasDerivAt (fun t : ℝ => t ^ p * (1 - t) ^ q)
      (p * (t ^ (p - 1) * (1 - t) ^ (q - 1)) - (p + q) * (t ^ (p + 1 - 1) * (1 - t) ^ (q - 1))) t := by
    intro t ht
    have h1 : (0 : ℝ) < 1 - t := by linarith [ht.2]
    have a := Real.hasDerivAt_rpow_const (x := t) (p := p) (Or.inl ht.1.ne')
    have b := ((hasDerivAt_const t (1 : ℝ)).sub (hasDerivAt_id t)).rpow_const (p := q) (Or.inl h1.ne')
    refine (a.mul b).congr_deriv ?_
    simp only [id, Pi.sub_apply]
    rw [show p + 1 - 1 = p by ring]
    have e1 : (1 - t) ^ q = (1 - t) ^ (q - 1) * (1 - t) := by
      rw [← Real.rpow_add_one h1.ne']; ring_nf
    have e2 : t ^ p = t ^ (p - 1) * t := by
      rw [← Real.rpow_add_one ht.1.ne']; ring_nf
    rw [e1, e2]; ring
  have hc : ContinuousOn (fun t : ℝ => t ^ p * (1 - t) ^ q) (Icc 0 x) :=
    (Real.continuous_rpow_const hp.le).continuousOn.mul (cont_one_sub hx _)
  have hi := (integrable h0.le hx hp (q := q)).const_mul p
  have hj := (integrable h0.le hx (by linarith : 0 < p + 1) (q := q)).const_mul (p + q)
  have e := intervalIntegral.integral_eq_sub_of_hasDerivAt_of_le h0.le hc hd (hi.sub hj)
  rw [intervalIntegral.integral_sub hi hj, intervalIntegral.integral_const_mul, intervalIntegral.integral_const_mul,
    Real.zero_rpow hp.ne', zero_mul, sub_zero] at e
  simp only [Bx]; linarith

/-- The integral in units of its integrand at the end, up to a factor `1 - x`. -/
noncomputable def G (x p q : ℝ) : ℝ := Bx x p q / (x ^ (p - 1) * (1 - x) ^ q)

theorem denom_pos (h0 : 0 < x) (hx : x < 1) (p q : ℝ) : 0 < x ^ p * (1 - x) ^ q :=
  mul_pos (Real.rpow_pos_of_pos h0 _) (Real.rpow_pos_of_pos (by linarith) _)

theorem G_step1 (h0 : 0 < x) (hx : x < 1) (hp : 0 < p) :
    G x p q = x / (1 - x) / p * (1 + (q - 1) * G x (p + 1) (q - 1)) := by
  have h1 : 0 < 1 - x := by linarith
  have e := ibp1 h0 hx hp (q := q)
  have d1 := denom_pos h0 hx (p - 1) q
  have d2 := denom_pos h0 hx p (q - 1)
  have ex : x ^ p * (1 - x) ^ (q - 1) = x ^ (p - 1) * (1 - x) ^ q * (x / (1 - x)) := by
    have e1 : (1 - x) ^ q = (1 - x) ^ (q - 1) * (1 - x) := by
      rw [← Real.rpow_add_one h1.ne']; ring_nf
    have e2 : x ^ p = x ^ (p - 1) * x := by
      rw [← Real.rpow_add_one h0.ne']; ring_nf
    rw [e1, e2]; field_simp
  have hG : Bx x (p + 1) (q - 1) = G x (p + 1) (q - 1) * (x ^ (p - 1) * (1 - x) ^ q * (x / (1 - x))) := by
    rw [G, ← ex, show p + 1 - 1 = p by ring, div_mul_cancel₀ _ d2.ne']
  rw [hG, ex] at e
  rw [G, div_eq_iff d1.ne']
  have : Bx x p q = (p * Bx x p q) / p := by field_simp
  rw [this, e]; field_simp

theorem G_step2 (h0 : 0 < x) (hx : x < 1) (hp : 0 < p) :
    G x p q = x / p * (1 + (p + q) * G x (p + 1) q) := by
  have e := ibp2 h0 hx hp (q := q)
  have d1 := denom_pos h0 hx (p - 1) q
  have d2 := denom_pos h0 hx p q
  have ex : x ^ p * (1 - x) ^ q = x ^ (p - 1) * (1 - x) ^ q * x := by
    have e2 : x ^ p = x ^ (p - 1) * x := by
      rw [← Real.rpow_add_one h0.ne']; ring_nf
    rw [e2]; ring
  have hG : Bx x (p + 1) q = G x (p + 1) q * (x ^ (p - 1) * (1 - x) ^ q * x) := by
    rw [G, ← ex, show p + 1 - 1 = p by ring, div_mul_cancel₀ _ d2.ne']
  rw [hG, ex] at e
  rw [G, div_eq_iff d1.ne']
  have : Bx x p q = (p * Bx x p q) / p := by field_simp
  rw [this, e]; field_simp

theorem Bx_nonneg (h0 : 0 ≤ x) (hx : x < 1) (p q : ℝ) : 0 ≤ Bx x p q := by
  refine intervalIntegral.integral_nonneg h0 fun t ht => ?_
  exact mul_nonneg (Real.rpow_nonneg ht.1 _) (Real.rpow_nonneg (by linarith [ht.2]) _)

theorem G_nonneg (h0 : 0 < x) (hx : x < 1) (p q : ℝ) : 0 ≤ G x p q :=
  div_nonneg (Bx_nonneg h0.le hx p q) (denom_pos h0 hx _ _).le

/-- The integrand grows up to the mean. -/
theorem integrand_mono (hp : 0 < p) (hq : 0 < q) {t : ℝ} (h0 : 0 < t) (htx : t ≤ x) (hx1 : x < 1) (hx : (p + q) * x ≤ p) :
    t ^ p * (1 - t) ^ q ≤ x ^ p * (1 - x) ^ q := by
  have hc : ContinuousOn (fun t : ℝ => t ^ p * (1 - t) ^ q) (Icc t x) := by
    refine (Real.continuous_rpow_const hp.le).continuousOn.mul ((cont_one_sub hx1 q).mono (Icc_subset_Icc_left h0.le))
  refine monotoneOn_of_deriv_nonneg (convex_Icc t x) hc ?_ ?_ (left_mem_Icc.2 htx) (right_mem_Icc.2 htx) htx
  all_goals
    rw [interior_Icc]
  · intro s hs
    have h1 : (1 : ℝ) - s ≠ 0 := by linarith [hs.2]
    have hs0 : s ≠ 0 := by linarith [hs.1]
    exact ((Real.hasDerivAt_rpow_const (x := s) (p := p) (Or.inl hs0)).mul
      (((hasDerivAt_const s (1 : ℝ)).sub (hasDerivAt_id s)).rpow_const (p := q) (Or.inl h1))).differentiableAt.differentiableWithinAt
  · intro s hs
    have h1 : (0 : ℝ) < 1 - s := by linarith [hs.2]
    have hs0 : 0 < s := by linarith [hs.1]
    have d := ((Real.hasDerivAt_rpow_const (x := s) (p := p) (Or.inl hs0.ne')).mul
      (((hasDerivAt_const s (1 : ℝ)).sub (hasDerivAt_id s)).rpow_const (p := q) (Or.inl h1.ne')))
    have d' := d.deriv
    have : deriv (fun t : ℝ => t ^ p * (1 - t) ^ q) s = _ := d'
    rw [this]
    simp only [id, Pi.sub_apply]
    have e1 : (1 - s) ^ q = (1 - s) ^ (q - 1) * (1 - s) := by
      rw [← Real.rpow_add_one h1.ne']; ring_nf
    have e2 : s ^ p = s ^ (p - 1) * s := by
      rw [← Real.rpow_add_one hs0.ne']; ring_nf
    rw [e1, e2]
    have : p * s ^ (p - 1) * ((1 - s) ^ (q - 1) * (1 - s)) + s ^ (p - 1) * s * ((0 - 1) * q * (1 - s) ^ (q - 1)) =
      s ^ (p - 1) * (1 - s) ^ (q - 1) * (p - (p + q) * s) := by ring
    rw [this]
    have hs2 : (p + q) * s ≤ (p + q) * x := mul_le_mul_of_nonneg_left hs.2.le (by linarith)
    exact mul_nonneg (denom_pos hs0 (by linarith) _ _).le (by linarith)

/-- The bound for what is left. -/
theorem G_le (h0 : 0 < x) (hx1 : x < 1) (hp : 0 < p) (hq : 0 < q) (hx : (p + q) * x ≤ p) {P Q : ℝ} (hP : p + 1 ≤ P) (hQ : Q ≤ q) :
    G x P Q ≤ x / (1 - x) := by
  have h1 : 0 < 1 - x := by linarith
  rw [G, div_le_iff₀ (denom_pos h0 hx1 _ _)]
  have hb : ∀ t ∈ Icc 0 x, t ^ (P - 1) * (1 - t) ^ (Q - 1) ≤ x ^ (P - 1) * (1 - x) ^ (Q - 1) := by
    intro t ht
    rcases eq_or_lt_of_le ht.1 with h | h
    · rw [← h, Real.zero_rpow (by linarith), zero_mul]
      exact (denom_pos h0 hx1 _ _).le
    · have ht1 : 0 < 1 - t := by linarith [ht.2]
      have e : ∀ s : ℝ, 0 < s → 0 < 1 - s → s ^ (P - 1) * (1 - s) ^ (Q - 1) = (s ^ p * (1 - s) ^ q) * (s ^ (P - 1 - p) * (1 - s) ^ (Q - 1 - q)) := by
        intro s a b
        have e1 : s ^ (P - 1) = s ^ p * s ^ (P - 1 - p) := by rw [← Real.rpow_add a]; ring_nf
        have e2 : (1 - s) ^ (Q - 1) = (1 - s) ^ q * (1 - s) ^ (Q - 1 - q) := by rw [← Real.rpow_add b]; ring_nf
        rw [e1, e2]; ring
      rw [e t h ht1, e x h0 h1]
      refine mul_le_mul (integrand_mono hp hq h ht.2 hx1 hx) ?_ (denom_pos h (by linarith) _ _).le (denom_pos h0 hx1 _ _).le
      refine mul_le_mul (Real.rpow_le_rpow h.le ht.2 (by linarith)) ?_ (Real.rpow_nonneg ht1.le _) (Real.rpow_nonneg h0.le _)
      exact Real.rpow_le_rpow_of_nonpos h1 (by linarith [ht.2]) (by linarith)
  have hm := intervalIntegral.integral_mono_on h0.le (integrable h0.le hx1 (by linarith : 0 < P) (q := Q)) (intervalIntegrable_const) hb
  rw [intervalIntegral.integral_const, sub_zero, smul_eq_mul] at hm
  refine hm.trans (le_of_eq ?_)
  have e1 : (1 - x) ^ Q = (1 - x) ^ (Q - 1) * (1 - x) := by
    rw [← Real.rpow_add_one h1.ne']; ring_nf
  rw [e1]; field_simp

/-- The value of the whole series. -/
noncomputable def total (x p q : ℝ) : ℝ := 1 + (q - 1) * G x (p + 1) (q - 1)

theorem total_eq (h0 : 0 < x) (hx : x < 1) (hp : 0 < p) : total x p q * (x ^ p * (1 - x) ^ (q - 1) / p) = Bx x p q := by
  have e := ibp1 h0 hx hp (q := q)
  have d2 := denom_pos h0 hx p (q - 1)
  have hG : Bx x (p + 1) (q - 1) = G x (p + 1) (q - 1) * (x ^ p * (1 - x) ^ (q - 1)) := by
    rw [G, show p + 1 - 1 = p by ring, div_mul_cancel₀ _ d2.ne']
  rw [hG] at e
  have : Bx x p q = (p * Bx x p q) / p := by field_simp
  rw [this, e, total]; field_simp

theorem total_ge (h0 : 0 < x) (hx : x < 1) (hp : 0 < p) (hq : 0 < q) : 1 - x ≤ total x p q := by
  have h1 : 0 < 1 - x := by linarith
  have d2 := denom_pos h0 hx p (q - 1)
  have e := total_eq h0 hx hp (q := q)
  -- lower bound of the second factor of the integrand
  have key : ∀ c : ℝ, (∀ t ∈ Icc 0 x, c ≤ (1 - t) ^ (q - 1)) → c * (x ^ p / p) ≤ Bx x p q := by
    intro c hc
    have hm := intervalIntegral.integral_mono_on h0.le
      ((intervalIntegral.intervalIntegrable_rpow' (a := 0) (b := x) (r := p - 1) (by linarith)).mul_const c)
      (integrable h0.le hx hp (q := q)) fun t ht => mul_le_mul_of_nonneg_left (hc t ht) (Real.rpow_nonneg ht.1 _)
    rw [intervalIntegral.integral_mul_const, integral_rpow (Or.inl (by linarith)), sub_add_cancel, Real.zero_rpow hp.ne', sub_zero] at hm
    rw [mul_comm]; exact hm
  have hxp : 0 < x ^ p := Real.rpow_pos_of_pos h0 _
  have hx1 : 0 < (1 - x) ^ (q - 1) := Real.rpow_pos_of_pos h1 _
  rcases le_or_gt 1 q with hq1 | hq1
  · have hk := key ((1 - x) ^ (q - 1)) fun t ht => Real.rpow_le_rpow h1.le (by linarith [ht.2]) (by linarith)
    rw [← e] at hk
    have : 1 * (x ^ p * (1 - x) ^ (q - 1) / p) ≤ total x p q * (x ^ p * (1 - x) ^ (q - 1) / p) := by
      refine le_trans (le_of_eq ?_) hk; ring
    have := le_of_mul_le_mul_right this (by positivity)
    linarith
  · have hk := key 1 fun t ht => by
      exact Real.one_le_rpow_of_pos_of_le_one_of_nonpos (by linarith [ht.2]) (by linarith [ht.1]) (by linarith)
    rw [← e] at hk
    have h2 : (1 - x) * (x ^ p * (1 - x) ^ (q - 1) / p) ≤ total x p q * (x ^ p * (1 - x) ^ (q - 1) / p) := by
      refine le_trans ?_ hk
      have : (1 - x) * (1 - x) ^ (q - 1) ≤ 1 := by
        rw [mul_comm, ← Real.rpow_add_one h1.ne', sub_add_cancel]
        exact Real.rpow_le_one h1.le (by linarith) hq.le
      calc (1 - x) * (x ^ p * (1 - x) ^ (q - 1) / p) = ((1 - x) * (1 - x) ^ (q - 1)) * (x ^ p / p) := by ring
        _ ≤ 1 * (x ^ p / p) := mul_le_mul_of_nonneg_right this (by positivity)
    exact le_of_mul_le_mul_right h2 (by positivity)

/-- A sharper bound for a second parameter below one. -/
theorem G_le_div (h0 : 0 < x) (hx1 : x < 1) (hp : 0 < p) (hq : q ≤ 1) : p * G x p q ≤ x / (1 - x) := by
  have h1 : 0 < 1 - x := by linarith
  have hm := intervalIntegral.integral_mono_on h0.le (integrable h0.le hx1 hp (q := q))
    ((intervalIntegral.intervalIntegrable_rpow' (a := 0) (b := x) (r := p - 1) (by linarith)).mul_const ((1 - x) ^ (q - 1)))
    fun t ht => mul_le_mul_of_nonneg_left (Real.rpow_le_rpow_of_nonpos h1 (by linarith [ht.2]) (by linarith : q - 1 ≤ 0))
      (Real.rpow_nonneg ht.1 _)
  rw [intervalIntegral.integral_mul_const, integral_rpow (Or.inl (by linarith)), sub_add_cancel, Real.zero_rpow hp.ne', sub_zero] at hm
  rw [G, mul_div_assoc', div_le_iff₀ (denom_pos h0 hx1 _ _)]
  have e1 : (1 - x) ^ q = (1 - x) ^ (q - 1) * (1 - x) := by
    rw [← Real.rpow_add_one h1.ne']; ring_nf
  have e2 : x ^ p = x ^ (p - 1) * x := by
    rw [← Real.rpow_add_one h0.ne']; ring_nf
  have : p * Bx x p q ≤ p * (x ^ p / p * (1 - x) ^ (q - 1)) := mul_le_mul_of_nonneg_left hm hp.le
  refine this.trans (le_of_eq ?_)
  rw [e1, e2]; field_simp

open XR Special in
/-- One turn of the loop at finite arguments. -/
theorem betaLoop_step {eps p q x term y i temp rx psq : ℝ} {s : ℤ} {n : ℕ} (hpi : p + i ≠ 0) :
    betaLoop (fin eps) (fin p) (fin q) (fin x) (n + 1) (fin term) (fin y) (fin i) (fin temp) (fin rx) (fin psq) s =
    if |term * (temp * rx / (p + i))| ≤ eps ∧ |term * (temp * rx / (p + i))| ≤ eps * (y + term * (temp * rx / (p + i))) then
      some (fin (y + term * (temp * rx / (p + i))))
    else if s - 1 < -2 ^ 31 then none
    else if 0 ≤ s - 1 then
      betaLoop (fin eps) (fin p) (fin q) (fin x) n (fin (term * (temp * rx / (p + i)))) (fin (y + term * (temp * rx / (p + i))))
        (fin (i + 1)) (fin (q - (i + 1))) (fin (if s - 1 = 0 then x else rx)) (fin psq) (s - 1)
    else
      betaLoop (fin eps) (fin p) (fin q) (fin x) n (fin (term * (temp * rx / (p + i)))) (fin (y + term * (temp * rx / (p + i))))
        (fin (i + 1)) (fin psq) (fin rx) (fin (psq + 1)) (s - 1) := by
  rw [betaLoop]
  simp only [ofNat_fin, fin_add, fin_mul, fin_sub, fin_div hpi, abs_fin, fin_le, Nat.cast_one]
  split_ifs <;> rfl

open XR Special in
theorem stage2 {eps : ℝ} (h0 : 0 < x) (hx1 : x < 1) (hp : 0 < p) (hq : 0 < q) (he : 0 < eps) (he1 : eps ≤ 1) {Q : ℝ} (hQ : Q < 0) :
    ∀ (k fuel : ℕ), k < fuel → ∀ (term y i : ℝ) (s : ℤ), s < 0 → -2 ^ 31 ≤ s - k → 0 ≤ i → 0 ≤ p + i + Q - 1 →
    total x p q = y + term * (p + i + Q - 1) * G x (p + i) Q → |term| * x ^ k ≤ eps * (1 - x) ^ 2 →
    ∃ y', betaLoop (fin eps) (fin p) (fin q) (fin x) fuel (fin term) (fin y) (fin i) (fin (p + i + Q - 1)) (fin x) (fin (p + i + Q)) s
      = some (fin y') ∧ |y' - total x p q| ≤ x / (1 - x) * (eps * y') := by
  have h1 : 0 < 1 - x := by linarith
  intro k
  induction k with
  | zero =>
    intro fuel hf term y i s hs hs2 hi ht htot hterm
    obtain ⟨n, rfl⟩ : ∃ n, fuel = n + 1 := ⟨fuel - 1, by omega⟩
    have hpi : 0 < p + i := by linarith
    set t := term * ((p + i + Q - 1) * x / (p + i)) with htd
    have htle : |t| ≤ |term| * x := by
      rw [htd, abs_mul]
      refine mul_le_mul_of_nonneg_left ?_ (abs_nonneg _)
      rw [abs_of_nonneg (by positivity), div_le_iff₀ hpi]
      nlinarith
    have htot' : total x p q = (y + t) + t * ((p + i + Q) * G x (p + i + 1) Q) := by
      rw [htot, G_step2 h0 hx1 hpi, htd]; field_simp; ring
    have hG : (p + i + Q) * G x (p + i + 1) Q ≤ x / (1 - x) := by
      refine le_trans ?_ (G_le_div h0 hx1 (by linarith : 0 < p + i + 1) (by linarith : Q ≤ 1))
      exact mul_le_mul_of_nonneg_right (by linarith) (G_nonneg h0 hx1 _ _)
    have hG0 : 0 ≤ (p + i + Q) * G x (p + i + 1) Q := mul_nonneg (by linarith) (G_nonneg h0 hx1 _ _)
    have hdiff : |(y + t) - total x p q| ≤ x / (1 - x) * |t| := by
      rw [htot', show y + t - (y + t + t * ((p + i + Q) * G x (p + i + 1) Q)) = -(t * ((p + i + Q) * G x (p + i + 1) Q)) by ring,
        abs_neg, abs_mul, abs_of_nonneg hG0, mul_comm]
      exact mul_le_mul_of_nonneg_right hG (abs_nonneg _)
    have htge := total_ge h0 hx1 hp hq
    have hc : |t| ≤ eps ∧ |t| ≤ eps * (y + t) := by
      have hsm : |t| ≤ eps * (1 - x) ^ 2 := by
        refine le_trans htle (le_trans ?_ hterm)
        rw [pow_zero]
        exact mul_le_mul_of_nonneg_left hx1.le (abs_nonneg _)
      have hsq : (1 - x) ^ 2 ≤ 1 := by nlinarith
      refine ⟨hsm.trans (by nlinarith), hsm.trans (mul_le_mul_of_nonneg_left ?_ he.le)⟩
      have : x / (1 - x) * |t| ≤ x * (1 - x) := by
        rw [div_mul_eq_mul_div, div_le_iff₀ h1]
        have : |t| ≤ (1 - x) ^ 2 := hsm.trans (by nlinarith [sq_nonneg (1 - x)])
        nlinarith
      have := (abs_le.1 hdiff).1
      nlinarith
    rw [betaLoop_step hpi.ne', if_pos hc]
    refine ⟨_, rfl, hdiff.trans (mul_le_mul_of_nonneg_left hc.2 (by positivity))⟩
  | succ k ih =>
    intro fuel hf term y i s hs hs2 hi ht htot hterm
    obtain ⟨n, rfl⟩ : ∃ n, fuel = n + 1 := ⟨fuel - 1, by omega⟩
    have hpi : 0 < p + i := by linarith
    rw [betaLoop_step hpi.ne']
    set t := term * ((p + i + Q - 1) * x / (p + i)) with htd
    have htle : |t| ≤ |term| * x := by
      rw [htd, abs_mul]
      refine mul_le_mul_of_nonneg_left ?_ (abs_nonneg _)
      rw [abs_of_nonneg (by positivity), div_le_iff₀ hpi]
      nlinarith
    have htot' : total x p q = (y + t) + t * ((p + i + Q) * G x (p + i + 1) Q) := by
      rw [htot, G_step2 h0 hx1 hpi, htd]; field_simp; ring
    have hG : (p + i + Q) * G x (p + i + 1) Q ≤ x / (1 - x) := by
      refine le_trans ?_ (G_le_div h0 hx1 (by linarith : 0 < p + i + 1) (by linarith : Q ≤ 1))
      exact mul_le_mul_of_nonneg_right (by linarith) (G_nonneg h0 hx1 _ _)
    have hG0 : 0 ≤ (p + i + Q) * G x (p + i + 1) Q := mul_nonneg (by linarith) (G_nonneg h0 hx1 _ _)
    have hdiff : |(y + t) - total x p q| ≤ x / (1 - x) * |t| := by
      rw [htot', show y + t - (y + t + t * ((p + i + Q) * G x (p + i + 1) Q)) = -(t * ((p + i + Q) * G x (p + i + 1) Q)) by ring,
        abs_neg, abs_mul, abs_of_nonneg hG0, mul_comm]
      exact mul_le_mul_of_nonneg_right hG (abs_nonneg _)
    by_cases hc : |t| ≤ eps ∧ |t| ≤ eps * (y + t)
    · rw [if_pos hc]
      exact ⟨_, rfl, hdiff.trans (mul_le_mul_of_nonneg_left hc.2 (by positivity))⟩
    · rw [if_neg hc, if_neg (by push_cast at hs2; omega), if_neg (by omega)]
      have := ih n (by omega) t (y + t) (i + 1) (s - 1) (by omega) (by push_cast at hs2 ⊢; omega) (by linarith) (by linarith)
        (by rw [htot', show p + (i + 1) + Q - 1 = p + i + Q by ring, show p + (i + 1) = p + i + 1 by ring]; ring)
        (by
          refine le_trans ?_ hterm
          rw [pow_succ', ← mul_assoc]
          exact mul_le_mul_of_nonneg_right htle (by positivity))
      rwa [show p + (i + 1) + Q - 1 = p + i + Q by ring, show p + (i + 1) + Q = p + i + Q + 1 by ring] at this

open XR Special in
theorem stage1 {eps M : ℝ} {m : ℕ} (h0 : 0 < x) (hx1 : x < 1) (hp : 0 < p) (hq : 0 < q) (hx : (p + q) * x ≤ p) (he : 0 < eps) (he1 : eps ≤ 1)
    (hm : x ^ m ≤ eps * (1 - x) ^ 2) (hm2 : m + 1 ≤ 2 ^ 31) (hM : p ≤ M) (hM2 : x / (1 - x) ≤ M) :
    ∀ (n fuel : ℕ), n + m + 1 < fuel → ∀ (term y i : ℝ), 1 ≤ i → n + i - 1 ≤ q + (1 - x) * (p + q) → q + (1 - x) * (p + q) < n + i →
    total x p q = y + term * (q - i) * G x (p + i) (q - i) → |term| ≤ 1 →
    ∃ y', betaLoop (fin eps) (fin p) (fin q) (fin x) fuel (fin term) (fin y) (fin i) (fin (q - i)) (fin (if (n : ℤ) = 0 then x else x / (1 - x)))
      (fin (p + q)) n = some (fin y') ∧ |y' - total x p q| ≤ M * (eps * y') := by
  have h1 : 0 < 1 - x := by linarith
  have hM0 : 0 ≤ M := by linarith
  intro n
  induction n with
  | zero =>
    intro fuel hf term y i hi hW1 hW2 htot hterm
    obtain ⟨n, rfl⟩ : ∃ n, fuel = n + 1 := ⟨fuel - 1, by omega⟩
    have hpi : 0 < p + i := by linarith
    have hQ : q - i < 0 := by
      have : 0 < (1 - x) * (p + q) := by positivity
      simp at hW2; linarith
    rw [if_pos (by simp), betaLoop_step hpi.ne']
    set t := term * ((q - i) * x / (p + i)) with htd
    have htle : |t| ≤ 1 := by
      rw [htd, abs_mul]
      refine mul_le_one₀ hterm (abs_nonneg _) ?_
      rw [abs_div, abs_of_pos hpi, div_le_one hpi, abs_mul, abs_of_neg hQ, abs_of_pos h0]
      nlinarith
    have htot' : total x p q = (y + t) + t * ((p + q) * G x (p + i + 1) (q - i)) := by
      rw [htot, G_step2 h0 hx1 hpi, htd, show p + i + (q - i) = p + q by ring]; field_simp; ring
    have hG : (p + q) * G x (p + i + 1) (q - i) ≤ x / (1 - x) := by
      refine le_trans ?_ (G_le_div h0 hx1 (by linarith : 0 < p + i + 1) (by linarith : q - i ≤ 1))
      exact mul_le_mul_of_nonneg_right (by linarith) (G_nonneg h0 hx1 _ _)
    have hG0 : 0 ≤ (p + q) * G x (p + i + 1) (q - i) := mul_nonneg (by linarith) (G_nonneg h0 hx1 _ _)
    have hdiff : |(y + t) - total x p q| ≤ M * |t| := by
      rw [htot', show y + t - (y + t + t * ((p + q) * G x (p + i + 1) (q - i))) = -(t * ((p + q) * G x (p + i + 1) (q - i))) by ring,
        abs_neg, abs_mul, abs_of_nonneg hG0, mul_comm]
      exact mul_le_mul_of_nonneg_right (hG.trans hM2) (abs_nonneg _)
    by_cases hc : |t| ≤ eps ∧ |t| ≤ eps * (y + t)
    · rw [if_pos hc]
      exact ⟨_, rfl, hdiff.trans (mul_le_mul_of_nonneg_left hc.2 hM0)⟩
    · rw [if_neg hc, if_neg (by simp), if_neg (by simp)]
      obtain ⟨y', e, hy'⟩ := stage2 h0 hx1 hp hq he he1 hQ m n (by omega) t (y + t) (i + 1) (((0 : ℕ) : ℤ) - 1) (by simp)
        (by push_cast; omega) (by linarith) (by linarith)
        (by rw [htot', show p + (i + 1) + (q - i) - 1 = p + q by ring, show p + (i + 1) = p + i + 1 by ring]; ring)
        (by
          refine le_trans ?_ hm
          exact mul_le_of_le_one_left (by positivity) htle)
      rw [show p + (i + 1) + (q - i) - 1 = p + q by ring, show p + (i + 1) + (q - i) = p + q + 1 by ring] at e
      refine ⟨y', e, hy'.trans (mul_le_mul_of_nonneg_right hM2 ?_)⟩
      by_contra hneg
      push Not at hneg
      have := (abs_nonneg _).trans hy'
      have hxx : 0 < x / (1 - x) := by positivity
      nlinarith
  | succ n ih =>
    intro fuel hf term y i hi hW1 hW2 htot hterm
    obtain ⟨fuel, rfl⟩ : ∃ n, fuel = n + 1 := ⟨fuel - 1, by omega⟩
    have hpi : 0 < p + i := by linarith
    rw [if_neg (by push_cast; omega), betaLoop_step hpi.ne']
    push_cast at hW1 hW2
    have hn0 : (0 : ℝ) ≤ n := n.cast_nonneg
    set t := term * ((q - i) * (x / (1 - x)) / (p + i)) with htd
    have htle : |t| ≤ 1 := by
      rw [htd, abs_mul]
      refine mul_le_one₀ hterm (abs_nonneg _) ?_
      rw [abs_div, abs_of_pos hpi, div_le_one hpi, abs_mul, abs_of_pos (by positivity : 0 < x / (1 - x)), mul_div_assoc', div_le_iff₀ h1]
      have hiW : i ≤ q + (1 - x) * (p + q) := by linarith
      rcases abs_cases (q - i) with ⟨e, _⟩ | ⟨e, _⟩ <;> rw [e]
      · nlinarith
      · rcases le_or_gt (2 * x) 1 with h2 | h2
        · nlinarith
        · have := mul_le_mul_of_nonneg_left hiW (by linarith : 0 ≤ 2 * x - 1)
          have h3 : (2 * x - 1) * ((1 - x) * (p + q)) ≤ (1 - x) * (p + q) := by
            have : 0 ≤ (1 - x) * (p + q) := by positivity
            nlinarith
          nlinarith
    have htot' : total x p q = (y + t) + t * ((q - (i + 1)) * G x (p + (i + 1)) (q - (i + 1))) := by
      rw [htot, G_step1 h0 hx1 hpi, htd, show q - i - 1 = q - (i + 1) by ring, show p + i + 1 = p + (i + 1) by ring]; field_simp; ring
    have hG : |(q - (i + 1)) * G x (p + (i + 1)) (q - (i + 1))| ≤ M := by
      rw [abs_mul, abs_of_nonneg (G_nonneg h0 hx1 _ _)]
      rcases abs_cases (q - (i + 1)) with ⟨e, h⟩ | ⟨e, h⟩ <;> rw [e]
      · have hg := G_le h0 hx1 hp hq hx (by linarith : p + 1 ≤ p + (i + 1)) (by linarith : q - (i + 1) ≤ q)
        refine le_trans (mul_le_mul_of_nonneg_left hg h) (le_trans ?_ hM)
        rw [mul_div_assoc', div_le_iff₀ h1]
        nlinarith
      · refine le_trans ?_ ((G_le_div h0 hx1 (by linarith : 0 < p + (i + 1)) (by linarith : q - (i + 1) ≤ 1)).trans hM2)
        exact mul_le_mul_of_nonneg_right (by linarith) (G_nonneg h0 hx1 _ _)
    have hdiff : |(y + t) - total x p q| ≤ M * |t| := by
      rw [htot', show ∀ a b : ℝ, a - (a + b) = -b by intros; ring, abs_neg, abs_mul, mul_comm]
      exact mul_le_mul_of_nonneg_right hG (abs_nonneg _)
    by_cases hc : |t| ≤ eps ∧ |t| ≤ eps * (y + t)
    · rw [if_pos hc]
      exact ⟨_, rfl, hdiff.trans (mul_le_mul_of_nonneg_left hc.2 hM0)⟩
    · rw [if_neg hc, if_neg (by push_cast; omega), if_pos (by push_cast; omega)]
      have := ih fuel (by omega) t (y + t) (i + 1) (by linarith) (by linarith) (by linarith) (by rw [htot']; ring) htle
      rwa [show (((n + 1 : ℕ) : ℤ) - 1) = n by push_cast; ring]

end Trng.BetaSeries
