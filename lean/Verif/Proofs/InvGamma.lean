import Verif.Proofs.GammaCf
import Mathlib.Analysis.Calculus.Deriv.MeanValue

/-! The inverse of the incomplete Gamma function: Halley's method is Newton's method for a function that is convex above and
concave below the solution. -/
namespace Trng.InvGamma
open Set MeasureTheory XR Special BetaSeries GammaSeries GammaFraction Filter Topology

variable {a x p : ℝ}

/-- The density. -/
noncomputable def w (a x : ℝ) : ℝ := Real.exp (-x + (a - 1) * Real.log x - Real.log (Real.Gamma a))

theorem w_pos (a x : ℝ) : 0 < w a x := Real.exp_pos _

theorem w_eq (ha : 0 < a) (hx : 0 < x) : w a x = x ^ (a - 1) * Real.exp (-x) / Real.Gamma a := by
  rw [w, Real.exp_sub, Real.exp_log (Real.Gamma_pos_of_pos ha), Real.exp_add, Real.rpow_def_of_pos hx, mul_comm (a - 1), mul_comm]

theorem P_deriv (ha : 0 < a) (hx : 0 < x) : HasDerivAt (Spec.regGamma a) (w a x) x := by
  have h : HasDerivAt (fun y => Spec.lowerGamma a y) (x ^ (a - 1) * Real.exp (-x)) x := by
    refine intervalIntegral.integral_hasDerivAt_right (integrable ha x) ?_ ?_
    · refine ContinuousOn.stronglyMeasurableAtFilter (s := Ioi 0) isOpen_Ioi (fun y hy => ?_) x hx
      exact ((Real.continuousAt_rpow_const y (a - 1) (Or.inl (ne_of_gt hy))).mul (by fun_prop)).continuousWithinAt
    · exact (Real.continuousAt_rpow_const x (a - 1) (Or.inl hx.ne')).mul (by fun_prop)
  have h2 := h.div_const (Real.Gamma a)
  rw [w_eq ha hx]
  exact h2.congr_of_eventuallyEq (Eventually.of_forall fun y => regGamma_eq ha y)

theorem P_strictMono (ha : 0 < a) : StrictMonoOn (Spec.regGamma a) (Ioi 0) := by
  refine strictMonoOn_of_deriv_pos (convex_Ioi 0) (fun y hy => (P_deriv ha hy).continuousAt.continuousWithinAt) fun y hy => ?_
  rw [interior_Ioi] at hy
  rw [(P_deriv ha hy).deriv]; exact w_pos a y

/-- The quotient of the second and the first derivative. -/
noncomputable def h (a x : ℝ) : ℝ := (a - 1) / x - 1

/-- The step from `x` where the function has the value `v`. -/
noncomputable def step (a p v x : ℝ) : ℝ := ((v - p) / w a x) / (1 - min 1 ((v - p) / w a x * h a x) / 2)

noncomputable def nxt (F : ℝ → ℝ) (a p x : ℝ) : ℝ := if x - step a p (F x) x ≤ 0 then x / 2 else x - step a p (F x) x

theorem nxt_pos (F : ℝ → ℝ) (a p : ℝ) (hx : 0 < x) : 0 < nxt F a p x := by
  rw [nxt]; split_ifs with h
  · positivity
  · exact not_le.1 h

noncomputable def seq (F : ℝ → ℝ) (a p x : ℝ) : ℕ → ℝ
  | 0 => x
  | n + 1 => nxt F a p (seq F a p x n)

theorem seq_pos (F : ℝ → ℝ) (a p : ℝ) (hx : 0 < x) (n : ℕ) : 0 < InvGamma.seq F a p x n := by
  induction n with
  | zero => exact hx
  | succ n ih => exact nxt_pos F a p ih

theorem seq_succ' (F : ℝ → ℝ) (a p x : ℝ) (n : ℕ) : InvGamma.seq F a p x (n + 1) = InvGamma.seq F a p (nxt F a p x) n := by
  induction n with
  | zero => rfl
  | succ n ih => rw [InvGamma.seq, ih]; rfl

theorem den_pos (z : ℝ) : 0 < 1 - min 1 z / 2 := by
  have := min_le_left 1 z
  linarith

theorem umin_fin (z : ℝ) : umin 1 (fin z) = fin (min 1 z) := by
  rw [umin, ofNat_fin, Nat.cast_one]
  by_cases h : (1 : ℝ) ≤ z
  · rw [if_pos (by rw [fin_le]; exact h), min_eq_left h]
  · rw [if_neg (by rw [fin_le]; exact h), min_eq_right (not_le.1 h).le]

/-- The loop. -/
theorem loop (L : Limits) {GP : XR → XR → XR} {F : ℝ → ℝ} (ha : 0 < a) (he : 0 ≤ L.epsilon) (hGP : ∀ x : ℝ, 0 < x → GP (fin a) (fin x) = fin (F x)) :
    ∀ (k : ℕ) {x : ℝ}, 0 < x → ∃ m ≤ k,
      invGammaLoop L GP (fin a) (fin p) (lnGamma (fin a)) (ln (fin a - 1)) (XR.exp ((fin a - 1) * (ln (fin a - 1) - 1) - lnGamma (fin a))) k (fin x) =
        fin (InvGamma.seq F a p x m) ∧
      ((∃ n, m = n + 1 ∧ |step a p (F (InvGamma.seq F a p x n)) (InvGamma.seq F a p x n)| < Real.sqrt L.epsilon * InvGamma.seq F a p x m) ∨ m = k) := by
  intro k
  induction k with
  | zero => intro x _; exact ⟨0, le_rfl, rfl, Or.inr rfl⟩
  | succ k ih =>
    intro x hx
    have hw : (if 1 < fin a then XR.exp ((fin a - 1) * (ln (fin a - 1) - 1) - lnGamma (fin a)) * XR.exp (-(fin x - (fin a - 1)) + (fin a - 1) * (ln (fin x) - ln (fin a - 1)))
        else XR.exp (-fin x + (fin a - 1) * ln (fin x) - lnGamma (fin a))) = fin (w a x) := by
      simp only [ofNat_fin, Nat.cast_one, fin_sub, lnGamma_fin ha, ln_fin hx, neg_fin, fin_mul, fin_add, exp_fin, fin_lt]
      split_ifs with h
      · rw [ln_fin (by linarith)]
        simp only [fin_sub, fin_mul, fin_add, exp_fin]
        rw [← Real.exp_add, w]; congr 2; ring
      · rw [w]
    have hs : ∀ T : ℝ, T = step a p (F x) x → (if fin x - fin T ≤ 0 then (fin x - fin T + fin T) / 2 else fin x - fin T) = fin (nxt F a p x) := by
      intro T hT
      simp only [ofNat_fin, Nat.cast_zero, Nat.cast_ofNat, fin_sub, fin_add, fin_le, sub_add_cancel]
      rw [fin_div (by norm_num), nxt, hT]
      split_ifs <;> rfl
    have ht : (fin (F x) - fin p) / fin (w a x) / (1 - umin 1 ((fin (F x) - fin p) / fin (w a x) * ((fin a - 1) / fin x - 1)) / 2) = fin (step a p (F x) x) := by
      rw [fin_sub, fin_div (w_pos a x).ne']
      have e1 : (fin a - 1) / fin x - 1 = fin (h a x) := by
        simp only [ofNat_fin, Nat.cast_one, fin_sub]; rw [fin_div hx.ne', fin_sub, h]
      rw [e1, fin_mul, umin_fin]
      simp only [ofNat_fin, Nat.cast_one, Nat.cast_ofNat]
      rw [fin_div (by norm_num), fin_sub, fin_div (den_pos _).ne', step]
    rw [invGammaLoop]
    simp only [hGP x hx, hw, ht]
    rw [if_neg (by rw [ofNat_fin, fin_le]; push_cast; linarith), hs _ rfl]
    simp only [abs_fin, sqrt_fin he, fin_mul, fin_lt]
    split_ifs with hb
    · exact ⟨1, by omega, rfl, Or.inl ⟨0, rfl, hb⟩⟩
    · obtain ⟨m, hm, e, hd⟩ := ih (nxt_pos F a p hx)
      refine ⟨m + 1, by omega, ?_, ?_⟩
      · rw [seq_succ']; exact e
      · rcases hd with ⟨n, rfl, hn⟩ | hd
        · refine Or.inl ⟨n + 1, rfl, ?_⟩
          rw [seq_succ', seq_succ']; exact hn
        · exact Or.inr (by omega)

/-! ### The start -/

theorem pow3 (x : ℝ) : XR.pow (fin x) 3 = fin (x ^ 3) := by
  simp only [ofNat_fin, Nat.cast_ofNat]
  rcases lt_trichotomy x 0 with h | h | h
  · rw [XR.pow, if_neg (by norm_num), if_neg (not_lt.2 h.le), if_neg h.ne]
    have e : ⌊(3 : ℝ)⌋ = 3 := by norm_num
    rw [e, if_pos (by norm_num)]
    congr 1
  · rw [h, XR.pow, if_neg (by norm_num), if_neg (lt_irrefl _), if_pos rfl, if_pos (by norm_num)]; norm_num
  · rw [pow_fin h]; congr 1; exact_mod_cast Real.rpow_natCast x 3

theorem guess (ha : 0 < a) (hp : 0 < p) (hp1 : p < 1) : ∃ x : ℝ, invGammaGuess (fin a) (fin p) = fin x ∧ 0 < x ∧ (1 < a → 1 / 1000 ≤ x) := by
  rw [invGammaGuess]
  by_cases h1 : 1 < a
  · rw [if_pos (by rw [ofNat_fin, fin_lt]; push_cast; exact h1)]
    have hpp : (if fin p < 1 / 2 then fin p else 1 - fin p) = fin (if p < 1 / 2 then p else 1 - p) := by
      simp only [ofNat_fin, Nat.cast_one, Nat.cast_ofNat]
      rw [fin_div (by norm_num), fin_sub]
      by_cases h : p < 1 / 2
      · rw [if_pos (by rw [fin_lt]; exact h), if_pos h]
      · rw [if_neg (by rw [fin_lt]; exact h), if_neg h]
    set pp := if p < 1 / 2 then p else 1 - p with hppd
    have hpp0 : 0 < pp := by rw [hppd]; split_ifs <;> linarith
    have hpp1 : pp ≤ 1 := by rw [hppd]; split_ifs <;> linarith
    have hl : 0 ≤ -2 * Real.log pp := by have := Real.log_nonpos hpp0.le hpp1; linarith
    simp only [hpp, ln_fin hpp0]
    have e2 : (-2 * fin (Real.log pp) : XR) = fin (-2 * Real.log pp) := by
      rw [show (-2 : XR) = -(2 : XR) from rfl, ofNat_fin, neg_fin, fin_mul]; push_cast; rfl
    rw [e2, sqrt_fin hl]
    set t := Real.sqrt (-2 * Real.log pp)
    have ht : 0 ≤ t := Real.sqrt_nonneg _
    have hden : (1 + t * (0.99229 + t * 0.04481) : ℝ) ≠ 0 := by positivity
    simp only [ofNat_fin, Nat.cast_one, Nat.cast_ofNat, fin_mul, fin_add]
    rw [fin_div hden, fin_sub, neg_fin]
    obtain ⟨q, hq⟩ : ∃ q : ℝ, (if fin p < fin 1 / fin 2 then fin (-((2.30753 + t * 0.27061) / (1 + t * (0.99229 + t * 0.04481)) - t))
        else fin ((2.30753 + t * 0.27061) / (1 + t * (0.99229 + t * 0.04481)) - t)) = fin q := by
      split_ifs <;> exact ⟨_, rfl⟩
    rw [hq, fin_div (by linarith : (9 * a) ≠ 0), fin_sub, sqrt_fin ha.le, fin_mul, fin_div (by have := Real.sqrt_pos.2 ha; linarith : 3 * Real.sqrt a ≠ 0), fin_sub]
    have hp3 := pow3 (1 - 1 / (9 * a) - q / (3 * Real.sqrt a))
    simp only [ofNat_fin, Nat.cast_ofNat] at hp3
    rw [hp3, fin_mul, fin_div (by norm_num), umax]
    split_ifs with h
    · exact ⟨_, rfl, by norm_num, fun _ => le_rfl⟩
    · rw [fin_le] at h
      exact ⟨_, rfl, lt_trans (by norm_num) (not_le.1 h), fun _ => (not_le.1 h).le⟩
  · rw [if_neg (by rw [ofNat_fin, fin_lt]; push_cast; exact h1)]
    have ha1 := not_lt.1 h1
    simp only [ofNat_fin, Nat.cast_one, fin_mul, fin_add, fin_sub, fin_lt]
    set t := 1 - a * (0.253 + a * 0.12) with htd
    have ht0 : 0 < t := by rw [htd]; nlinarith
    have ht1 : 0 < 1 - t := by rw [htd]; have : 0 < a * (0.253 + a * 0.12) := by positivity
                               linarith
    split_ifs with h
    · rw [fin_div ht0.ne', fin_div ha.ne', pow_fin (div_pos hp ht0)]
      exact ⟨_, rfl, Real.rpow_pos_of_pos (div_pos hp ht0) _, fun h => absurd h h1⟩
    · have hpt := not_lt.1 h
      have e : 1 + -(p - t) / (1 - t) = (1 - p) / (1 - t) := by field_simp; ring
      have hq0 : 0 < (1 - p) / (1 - t) := div_pos (by linarith) ht1
      have hq1 : (1 - p) / (1 - t) ≤ 1 := by rw [div_le_one ht1]; linarith
      rw [neg_fin, fin_div ht1.ne', ln1p_fin (by rw [e]; exact hq0), e, fin_sub]
      have := Real.log_nonpos hq0.le hq1
      exact ⟨_, rfl, by linarith, fun h => absurd h h1⟩

/-- What `inv_GammaP` computes: one of the iterates. -/
theorem inv_seq (L : Limits) {GP : XR → XR → XR} {F : ℝ → ℝ} (ha : 0 < a) (hp : 0 < p) (hp1 : p < 1) (he : 0 ≤ L.epsilon)
    (hGP : ∀ x : ℝ, 0 < x → GP (fin a) (fin x) = fin (F x)) :
    ∃ x : ℝ, invGammaGuess (fin a) (fin p) = fin x ∧ 0 < x ∧ (1 < a → 1 / 1000 ≤ x) ∧ ∃ m ≤ L.digits, invGammaP L GP (fin a) (fin p) = fin (InvGamma.seq F a p x m) ∧
      ((∃ n, m = n + 1 ∧ |step a p (F (InvGamma.seq F a p x n)) (InvGamma.seq F a p x n)| < Real.sqrt L.epsilon * InvGamma.seq F a p x m) ∨ m = L.digits) := by
  obtain ⟨x, e, hx, h3⟩ := guess ha hp hp1
  obtain ⟨m, hm, e2, h2⟩ := loop L ha he hGP L.digits hx (p := p)
  exact ⟨x, e, hx, h3, m, hm, by rw [invGammaP, e]; exact e2, h2⟩

/-! ### Halley's method as Newton's method -/

/-- The square root of the density. -/
noncomputable def v (a x : ℝ) : ℝ := Real.exp ((-x + (a - 1) * Real.log x - Real.log (Real.Gamma a)) / 2)

theorem v_pos (a x : ℝ) : 0 < v a x := Real.exp_pos _
theorem v_sq (a x : ℝ) : v a x * v a x = w a x := by rw [v, w, ← Real.exp_add]; congr 1; ring

theorem v_deriv (hx : 0 < x) : HasDerivAt (v a) (h a x * v a x / 2) x := by
  have h1 := ((((hasDerivAt_id x).neg).add ((Real.hasDerivAt_log hx.ne').const_mul (a - 1))).sub_const (Real.log (Real.Gamma a))).div_const 2
  refine h1.exp.congr_deriv ?_
  simp only [v, h, Pi.add_apply, Pi.neg_apply, id]
  ring

theorem h_deriv (hx : 0 < x) : HasDerivAt (h a) (-(a - 1) / x ^ 2) x := by
  have h1 := ((hasDerivAt_inv hx.ne').const_mul (a - 1)).sub_const 1
  refine (h1.congr_deriv ?_).congr_of_eventuallyEq (Eventually.of_forall fun y => ?_)
  · ring
  · rw [h]; rfl

noncomputable def g (a p x : ℝ) : ℝ := (Spec.regGamma a x - p) / v a x
noncomputable def gp (a p x : ℝ) : ℝ := v a x - h a x * g a p x / 2
noncomputable def q (a x : ℝ) : ℝ := (a - 1) / (2 * x ^ 2) + h a x ^ 2 / 4

theorem g_deriv (ha : 0 < a) (hx : 0 < x) : HasDerivAt (g a p) (gp a p x) x := by
  have h1 := ((P_deriv ha hx).sub_const p).div (v_deriv (a := a) hx) (v_pos a x).ne'
  refine h1.congr_deriv ?_
  have hv := v_pos a x
  rw [gp, g, ← v_sq]
  field_simp

theorem gp_deriv (ha : 0 < a) (hx : 0 < x) : HasDerivAt (gp a p) (q a x * g a p x) x := by
  have h1 := (v_deriv (a := a) hx).sub (((h_deriv (a := a) hx).mul (g_deriv (p := p) ha hx)).div_const 2)
  refine h1.congr_deriv ?_
  rw [gp, q]
  field_simp
  ring

theorem q_nonneg (ha : 1 ≤ a) (x : ℝ) : 0 ≤ q a x := by
  rw [q]; have : 0 ≤ a - 1 := by linarith
  positivity

theorem q_le (ha : 1 ≤ a) (hx : 0 < x) : q a x ≤ (1 + a / x) ^ 2 / 4 := by
  rw [q, h]
  have : (1 + a / x) ^ 2 / 4 - ((a - 1) / (2 * x ^ 2) + ((a - 1) / x - 1) ^ 2 / 4) = ((2 * a - 1) * (1 + 2 * x) - 2 * (a - 1)) / (4 * x ^ 2) := by
    field_simp; ring
  have h2 : 0 ≤ ((2 * a - 1) * (1 + 2 * x) - 2 * (a - 1)) / (4 * x ^ 2) := by
    refine div_nonneg ?_ (by positivity)
    nlinarith
  linarith

variable {r : ℝ}

theorem g_sign (ha : 0 < a) (hr : 0 < r) (hp : Spec.regGamma a r = p) (hx : 0 < x) :
    (r ≤ x → 0 ≤ g a p x) ∧ (r < x → 0 < g a p x) ∧ (x ≤ r → g a p x ≤ 0) ∧ (x < r → g a p x < 0) := by
  have hm := P_strictMono ha
  have hv := v_pos a x
  refine ⟨fun h => div_nonneg ?_ hv.le, fun h => div_pos ?_ hv, fun h => div_nonpos_of_nonpos_of_nonneg ?_ hv.le, fun h => div_neg_of_neg_of_pos ?_ hv⟩ <;> rw [← hp]
  · have := (hm.le_iff_le hr hx).2 h; linarith
  · have := (hm.lt_iff_lt hr hx).2 h; linarith
  · have := (hm.le_iff_le hx hr).2 h; linarith
  · have := (hm.lt_iff_lt hx hr).2 h; linarith

/-- Newton's method for `g` does not pass the solution. -/
theorem newton (ha : 1 ≤ a) (hr : 0 < r) (hp : Spec.regGamma a r = p) (hx : 0 < x) :
    (r ≤ x → g a p x ≤ (x - r) * gp a p x) ∧ (x ≤ r → (x - r) * gp a p x ≤ g a p x) := by
  have ha0 : 0 < a := by linarith
  have hd : ∀ y ∈ Ioi (0 : ℝ), HasDerivAt (fun y => (y - r) * gp a p y - g a p y) ((y - r) * (q a y * g a p y)) y := by
    intro y hy
    have h1 := (((hasDerivAt_id y).sub_const r).mul (gp_deriv (p := p) ha0 hy)).sub (g_deriv (p := p) ha0 hy)
    refine h1.congr_deriv ?_
    simp only [id]; ring
  have hmono : MonotoneOn (fun y => (y - r) * gp a p y - g a p y) (Ioi 0) := by
    refine monotoneOn_of_deriv_nonneg (convex_Ioi 0) (fun y hy => (hd y hy).continuousAt.continuousWithinAt) (fun y hy => ?_) fun y hy => ?_
    · rw [interior_Ioi] at hy; exact (hd y hy).differentiableAt.differentiableWithinAt
    · rw [interior_Ioi] at hy
      rw [(hd y hy).deriv]
      have hs := g_sign ha0 hr hp hy
      have hq := q_nonneg ha y
      rcases le_total r y with h | h
      · exact mul_nonneg (by linarith) (mul_nonneg hq (hs.1 h))
      · exact mul_nonneg_of_nonpos_of_nonpos (by linarith) (mul_nonpos_of_nonneg_of_nonpos hq (hs.2.2.1 h))
  have hr0 : (r - r) * gp a p r - g a p r = 0 := by rw [g, hp]; simp
  constructor
  · intro h
    have : (r - r) * gp a p r - g a p r ≤ (x - r) * gp a p x - g a p x := hmono hr hx h
    linarith
  · intro h
    have : (x - r) * gp a p x - g a p x ≤ (r - r) * gp a p r - g a p r := hmono hx hr h
    linarith

theorem u_eq (a p x : ℝ) : (Spec.regGamma a x - p) / w a x = g a p x / v a x := by
  rw [← v_sq, g, div_div]

theorem gp_eq (a p x : ℝ) : gp a p x = v a x * (1 - g a p x / v a x * h a x / 2) := by
  have hv := v_pos a x
  rw [gp]; field_simp

theorem step_right (ha : 1 ≤ a) (hr : 0 < r) (hp : Spec.regGamma a r = p) (hx : r < x) :
    0 < step a p (Spec.regGamma a x) x ∧ step a p (Spec.regGamma a x) x ≤ x - r := by
  have hx0 : 0 < x := hr.trans hx
  have hg := (g_sign (by linarith) hr hp hx0).2.1 hx
  have hn := (newton ha hr hp hx0).1 hx.le
  have hv := v_pos a x
  rw [step, u_eq]
  rw [gp_eq] at hn
  set u := g a p x / v a x with hu
  have hu0 : 0 < u := div_pos hg hv
  have hgu : g a p x = v a x * u := by rw [hu]; field_simp
  rw [hgu] at hn
  have h1 : u ≤ (x - r) * (1 - u * h a x / 2) := by
    have : v a x * u ≤ v a x * ((x - r) * (1 - u * h a x / 2)) := by linarith
    exact le_of_mul_le_mul_left this hv
  have hd := den_pos (u * h a x)
  refine ⟨div_pos hu0 hd, ?_⟩
  rw [div_le_iff₀ hd]
  refine h1.trans (mul_le_mul_of_nonneg_left ?_ (by linarith))
  have := min_le_right 1 (u * h a x)
  linarith

theorem step_left (ha : 1 ≤ a) (hr : 0 < r) (hp : Spec.regGamma a r = p) (hx0 : 0 < x) (hx : x < r) :
    step a p (Spec.regGamma a x) x < 0 ∧ x - r ≤ step a p (Spec.regGamma a x) x := by
  have hg := (g_sign (by linarith) hr hp hx0).2.2.2 hx
  have hn := (newton ha hr hp hx0).2 hx.le
  have hv := v_pos a x
  rw [step, u_eq]
  rw [gp_eq] at hn
  set u := g a p x / v a x with hu
  have hu0 : u < 0 := div_neg_of_neg_of_pos hg hv
  have hgu : g a p x = v a x * u := by rw [hu]; field_simp
  rw [hgu] at hn
  have h1 : (x - r) * (1 - u * h a x / 2) ≤ u := by
    have : v a x * ((x - r) * (1 - u * h a x / 2)) ≤ v a x * u := by linarith
    exact le_of_mul_le_mul_left this hv
  have hd := den_pos (u * h a x)
  refine ⟨div_neg_of_neg_of_pos hu0 hd, ?_⟩
  rw [le_div_iff₀ hd]
  refine le_trans (mul_le_mul_of_nonpos_left ?_ (by linarith)) h1
  have := min_le_right 1 (u * h a x)
  linarith

theorem step_root (hp : Spec.regGamma a r = p) : step a p (Spec.regGamma a r) r = 0 := by
  rw [step, hp, sub_self, zero_div, zero_div]

/-- The iterates approach the solution from one side. -/
theorem nxt_between (ha : 1 ≤ a) (hr : 0 < r) (hp : Spec.regGamma a r = p) (hx : 0 < x) :
    nxt (Spec.regGamma a) a p x = x - step a p (Spec.regGamma a x) x ∧
      (r ≤ x → r ≤ nxt (Spec.regGamma a) a p x ∧ nxt (Spec.regGamma a) a p x ≤ x) ∧
      (x ≤ r → x ≤ nxt (Spec.regGamma a) a p x ∧ nxt (Spec.regGamma a) a p x ≤ r) := by
  rcases lt_trichotomy x r with h | h | h
  · obtain ⟨h1, h2⟩ := step_left ha hr hp hx h
    have e : nxt (Spec.regGamma a) a p x = x - step a p (Spec.regGamma a x) x := if_neg (by linarith)
    refine ⟨e, fun h' => absurd h' (not_le.2 h), fun _ => ?_⟩
    rw [e]; constructor <;> linarith
  · have h1 := step_root hp
    rw [← h] at h1
    have e : nxt (Spec.regGamma a) a p x = x - step a p (Spec.regGamma a x) x := if_neg (by rw [h1]; linarith)
    rw [e, h1]
    refine ⟨by ring, fun _ => ?_, fun _ => ?_⟩ <;> constructor <;> linarith
  · obtain ⟨h1, h2⟩ := step_right ha hr hp h
    have e : nxt (Spec.regGamma a) a p x = x - step a p (Spec.regGamma a x) x := if_neg (by linarith)
    refine ⟨e, fun _ => ?_, fun h' => absurd h' (not_le.2 h)⟩
    rw [e]; constructor <;> linarith

theorem seq_between (ha : 1 ≤ a) (hr : 0 < r) (hp : Spec.regGamma a r = p) (hx : 0 < x) (n : ℕ) :
    (r ≤ x → r ≤ InvGamma.seq (Spec.regGamma a) a p x n ∧ InvGamma.seq (Spec.regGamma a) a p x n ≤ x) ∧
    (x ≤ r → x ≤ InvGamma.seq (Spec.regGamma a) a p x n ∧ InvGamma.seq (Spec.regGamma a) a p x n ≤ r) := by
  induction n with
  | zero => exact ⟨fun h => ⟨h, le_rfl⟩, fun h => ⟨le_rfl, h⟩⟩
  | succ n ih =>
    have hb := nxt_between ha hr hp (seq_pos (Spec.regGamma a) a p hx n)
    refine ⟨fun h => ?_, fun h => ?_⟩
    · obtain ⟨h1, h2⟩ := ih.1 h
      obtain ⟨h3, h4⟩ := hb.2.1 h1
      exact ⟨h3, h4.trans h2⟩
    · obtain ⟨h1, h2⟩ := ih.2 h
      obtain ⟨h3, h4⟩ := hb.2.2 h2
      exact ⟨h1.trans h3, h4⟩

theorem step_continuous (ha : 0 < a) (p : ℝ) (hx : 0 < x) : ContinuousAt (fun y => step a p (Spec.regGamma a y) y) x := by
  have h1 : ContinuousAt (w a) x := by
    have hv := (v_deriv (a := a) hx).continuousAt
    have : w a = fun y => v a y * v a y := funext fun y => (v_sq a y).symm
    rw [this]; exact hv.mul hv
  have h2 : ContinuousAt (fun y => (Spec.regGamma a y - p) / w a y) x :=
    ((P_deriv ha hx).continuousAt.sub continuousAt_const).div h1 (w_pos a x).ne'
  have h3 := (h_deriv (a := a) hx).continuousAt
  refine h2.div ?_ (den_pos _).ne'
  exact continuousAt_const.sub ((continuousAt_const.min (h2.mul h3)).div_const 2)

theorem seq_tendsto (ha : 1 ≤ a) (hr : 0 < r) (hp : Spec.regGamma a r = p) (hx : 0 < x) :
    Tendsto (InvGamma.seq (Spec.regGamma a) a p x) atTop (𝓝 r) := by
  have ha0 : 0 < a := by linarith
  set s := InvGamma.seq (Spec.regGamma a) a p x with hs
  have hlim : ∃ l, 0 < l ∧ Tendsto s atTop (𝓝 l) := by
    rcases le_total r x with h | h
    · have hm : Antitone s := antitone_nat_of_succ_le fun n =>
        ((nxt_between ha hr hp (seq_pos _ a p hx n)).2.1 ((seq_between ha hr hp hx n).1 h).1).2
      have hb : BddBelow (range s) := ⟨r, by rintro _ ⟨n, rfl⟩; exact ((seq_between ha hr hp hx n).1 h).1⟩
      exact ⟨_, lt_of_lt_of_le hr (le_ciInf fun n => ((seq_between ha hr hp hx n).1 h).1), tendsto_atTop_ciInf hm hb⟩
    · have hm : Monotone s := monotone_nat_of_le_succ fun n =>
        ((nxt_between ha hr hp (seq_pos _ a p hx n)).2.2 ((seq_between ha hr hp hx n).2 h).2).1
      have hb : BddAbove (range s) := ⟨r, by rintro _ ⟨n, rfl⟩; exact ((seq_between ha hr hp hx n).2 h).2⟩
      exact ⟨_, lt_of_lt_of_le hx (le_ciSup hb 0), tendsto_atTop_ciSup hm hb⟩
  obtain ⟨l, hl, ht⟩ := hlim
  have h1 : Tendsto (fun n => s (n + 1)) atTop (𝓝 l) := (tendsto_add_atTop_iff_nat 1).2 ht
  have h2 : Tendsto (fun n => s n - step a p (Spec.regGamma a (s n)) (s n)) atTop (𝓝 (l - step a p (Spec.regGamma a l) l)) :=
    ht.sub ((step_continuous ha0 p hl).tendsto.comp ht)
  have h3 : (fun n => s (n + 1)) = fun n => s n - step a p (Spec.regGamma a (s n)) (s n) :=
    funext fun n => (nxt_between ha hr hp (seq_pos _ a p hx n)).1
  rw [h3] at h1
  have h4 := tendsto_nhds_unique h1 h2
  have h5 : step a p (Spec.regGamma a l) l = 0 := by linarith
  rw [step, div_eq_zero_iff, or_iff_left (den_pos _).ne', div_eq_zero_iff, or_iff_left (w_pos a l).ne'] at h5
  have : l = r := (P_strictMono ha0).injOn hl hr (by rw [hp]; linarith)
  rwa [this] at ht

/-! ### The error after the last step -/

theorem h_ge (ha : 1 ≤ a) (hx : 0 < x) : -1 ≤ h a x ∧ h a x ≤ (a - 1) / x := by
  rw [h]; have : 0 ≤ (a - 1) / x := div_nonneg (by linarith) hx.le
  constructor <;> linarith

/-- The density times `x` is at most `a`. -/
theorem xw_le (ha : 0 < a) (hx : 0 < x) : x * w a x ≤ a := by
  have h1 := lower_ge (a := a) (x := x) ha hx.le
  have h2 := complement ha hx.le
  have h3 := (K_pos (a := a) (x := x) ha hx 0).le
  have hG := Real.Gamma_pos_of_pos ha
  rw [w_eq ha hx]
  have e : x ^ a = x ^ (a - 1) * x := by rw [← Real.rpow_add_one hx.ne']; ring_nf
  rw [e] at h1
  rw [div_le_iff₀ ha] at h1
  rw [← mul_div_assoc, div_le_iff₀ hG]
  nlinarith

theorem v_log {y : ℝ} (h1 : -(x - y) + (a - 1) * (Real.log x - Real.log y) ≤ 1 / 2) : v a x ≤ 2 * v a y := by
  have e : v a x = v a y * Real.exp ((-(x - y) + (a - 1) * (Real.log x - Real.log y)) / 2) := by
    rw [v, v, ← Real.exp_add]; congr 1; ring
  have h2 : Real.exp ((-(x - y) + (a - 1) * (Real.log x - Real.log y)) / 2) ≤ Real.exp (1 / 4) := Real.exp_le_exp.2 (by linarith)
  have h3 : Real.exp (1 / 4) ≤ 2 := by
    have h4 := Real.add_one_le_exp (-(1 / 4) : ℝ)
    rw [Real.exp_neg] at h4
    have h5 := Real.exp_pos (1 / 4 : ℝ)
    have h6 : (1 / 2 : ℝ) ≤ (Real.exp (1 / 4))⁻¹ := by linarith
    have h7 := (le_inv_comm₀ (by norm_num) h5).1 h6
    norm_num at h7 ⊢; linarith
  rw [e]
  have := mul_le_mul_of_nonneg_left (h2.trans h3) (v_pos a y).le
  linarith

theorem log_sub_le {y : ℝ} (hx : 0 < x) (hy : 0 < y) : Real.log x - Real.log y ≤ (x - y) / y := by
  rw [← Real.log_div hx.ne' hy.ne']
  have := Real.log_le_sub_one_of_pos (div_pos hx hy)
  have e : (x - y) / y = x / y - 1 := by field_simp
  linarith

theorem gp_nonneg (ha : 1 ≤ a) (hr : 0 < r) (hp : Spec.regGamma a r = p) (hx : 0 < x) : 0 ≤ gp a p x := by
  rcases lt_trichotomy x r with h | h | h
  · have h1 := (newton ha hr hp hx).2 h.le
    have h2 := (g_sign (by linarith) hr hp hx).2.2.1 h.le
    by_contra hc
    have := mul_pos_of_neg_of_neg (sub_neg.2 h) (not_le.1 hc)
    linarith
  · have : g a p x = 0 := by rw [g, h, hp]; simp
    rw [gp, this]; have := v_pos a x; linarith
  · have h1 := (newton ha hr hp hx).1 h.le
    have h2 := (g_sign (by linarith) hr hp hx).1 h.le
    by_contra hc
    have := mul_neg_of_pos_of_neg (sub_pos.2 h) (not_le.1 hc)
    linarith

theorem g_mono (ha : 1 ≤ a) (hr : 0 < r) (hp : Spec.regGamma a r = p) : MonotoneOn (g a p) (Ioi 0) := by
  have ha0 : 0 < a := by linarith
  refine monotoneOn_of_deriv_nonneg (convex_Ioi 0) (fun y hy => (g_deriv ha0 hy).continuousAt.continuousWithinAt) (fun y hy => ?_) fun y hy => ?_
  · rw [interior_Ioi] at hy; exact (g_deriv ha0 hy).differentiableAt.differentiableWithinAt
  · rw [interior_Ioi] at hy
    rw [(g_deriv ha0 hy).deriv]; exact gp_nonneg ha hr hp hy

/-- Taylor's theorem for `g` around the new iterate. -/
theorem k_deriv (ha : 0 < a) {y z M : ℝ} (hz : 0 < z) :
    HasDerivAt (fun z => g a p z - (z - y) * gp a p z + M * (z - y) ^ 2 / 2) (-(z - y) * (q a z * g a p z) + M * (z - y)) z := by
  have h0 : HasDerivAt (fun z : ℝ => z - y) 1 z := (hasDerivAt_id z).sub_const y
  have h1 := ((g_deriv (p := p) ha hz).sub (h0.mul (gp_deriv (p := p) ha hz))).add (((h0.pow 2).const_mul M).div_const 2)
  refine h1.congr_deriv ?_
  simp only [Nat.cast_ofNat, Nat.add_one_sub_one, pow_one]; ring

set_option maxHeartbeats 800000 in
theorem stop_right (ha : 1 ≤ a) (hr : 0 < r) (hp : Spec.regGamma a r = p) (hx : r < x) {s y : ℝ} (hs : 0 ≤ s)
    (hy : y = x - step a p (Spec.regGamma a x) x) (ht : step a p (Spec.regGamma a x) x < s * y) (hsa : s * (a + y) ≤ 1 / 2) :
    Spec.regGamma a y - p ≤ s ^ 3 * a * (a + y) ^ 2 := by
  have ha0 : 0 < a := by linarith
  have hx0 : 0 < x := hr.trans hx
  obtain ⟨t0, t1⟩ := step_right ha hr hp hx
  have hg := (g_sign ha0 hr hp hx0).2.1 hx
  have hv := v_pos a x
  obtain ⟨hh1, hh2⟩ := h_ge ha hx0
  have htd : step a p (Spec.regGamma a x) x = g a p x / v a x / (1 - min 1 (g a p x / v a x * h a x) / 2) := by rw [step, u_eq]
  set t := step a p (Spec.regGamma a x) x with htdef
  set u := g a p x / v a x with hu
  have hu0 : 0 < u := div_pos hg hv
  have hgu : g a p x = v a x * u := by rw [hu]; field_simp
  have hy0 : 0 < y := by rw [hy]; linarith
  have hyr : r ≤ y := by rw [hy]; linarith
  have hyx : y ≤ x := by rw [hy]; linarith
  have hexp : s * (a + y) = s * a + s * y := by ring
  have hsa' : 0 ≤ s * a := mul_nonneg hs ha0.le
  have hsy' : 0 ≤ s * y := mul_nonneg hs hy0.le
  have hsa0 : s * a ≤ 1 / 2 := by linarith
  have hsy : s * y ≤ 1 / 2 := by linarith
  have hsa1 : s * (a - 1) ≤ 1 / 2 := by rw [mul_sub]; linarith
  have hta : t * (a - 1) ≤ y / 2 := by
    have : t * (a - 1) ≤ s * y * (a - 1) := mul_le_mul_of_nonneg_right ht.le (by linarith)
    have h2 : s * (a - 1) * y ≤ 1 / 2 * y := mul_le_mul_of_nonneg_right hsa1 hy0.le
    linarith
  -- the denominator is not cut off
  have hun : u * h a x ≤ 1 := by
    by_contra hc
    have hc := not_le.1 hc
    rw [min_eq_left hc.le] at htd
    have h1 : 1 < u * ((a - 1) / x) := lt_of_lt_of_le hc (mul_le_mul_of_nonneg_left hh2 hu0.le)
    rw [← mul_div_assoc, one_lt_div hx0] at h1
    have h2 : t = 2 * u := by rw [htd]; ring
    nlinarith
  rw [min_eq_right hun] at htd
  have hden : 0 < 1 - u * h a x / 2 := by linarith
  have htu : t * (1 - u * h a x / 2) = u := by rw [htd]; exact div_mul_cancel₀ u hden.ne'
  have hk0 : g a p x - (x - y) * gp a p x = 0 := by
    rw [gp_eq, hy, sub_sub_cancel]
    rw [← hu, hgu]
    linear_combination (-v a x) * htu
  have hu2 : u ≤ 2 * t := by
    have h1 : -(u * h a x) ≤ u := by nlinarith
    have h2 : u ≤ t * (1 + u / 2) := by rw [← htu]; exact mul_le_mul_of_nonneg_left (by rw [htu]; linarith) t0.le
    have h3 : t * (u / 2) ≤ 1 / 2 * (u / 2) := mul_le_mul_of_nonneg_right (by linarith) (by linarith)
    linarith
  -- Taylor
  set M := (1 + a / y) ^ 2 / 4 * g a p x with hM
  have hM0 : 0 ≤ M := by positivity
  have hmono : MonotoneOn (fun z => g a p z - (z - y) * gp a p z + M * (z - y) ^ 2 / 2) (Icc y x) := by
    refine monotoneOn_of_deriv_nonneg (convex_Icc y x) (fun z hz => (k_deriv ha0 (hy0.trans_le hz.1)).continuousAt.continuousWithinAt) (fun z hz => ?_) fun z hz => ?_
    · rw [interior_Icc] at hz; exact (k_deriv ha0 (hy0.trans hz.1)).differentiableAt.differentiableWithinAt
    · rw [interior_Icc] at hz
      have hz0 : 0 < z := hy0.trans hz.1
      rw [(k_deriv ha0 hz0).deriv]
      have h1 : g a p z ≤ g a p x := g_mono ha hr hp hz0 hx0 hz.2.le
      have h2 : 0 ≤ g a p z := (g_sign ha0 hr hp hz0).1 (hyr.trans hz.1.le)
      have h3 : q a z ≤ (1 + a / y) ^ 2 / 4 := by
        refine (q_le ha hz0).trans ?_
        have : a / z ≤ a / y := div_le_div_of_nonneg_left ha0.le hy0 hz.1.le
        have h4 : 0 ≤ a / z := by positivity
        nlinarith
      have h5 : q a z * g a p z ≤ M := mul_le_mul h3 h1 h2 (by positivity)
      have : 0 ≤ (z - y) * (M - q a z * g a p z) := mul_nonneg (by linarith [hz.1]) (by linarith)
      linarith
  have hk := hmono (left_mem_Icc.2 hyx) (right_mem_Icc.2 hyx) hyx
  simp only [hk0, sub_self, zero_mul, sub_zero, ne_eq, OfNat.ofNat_ne_zero, not_false_eq_true, zero_pow, mul_zero, zero_div, add_zero, zero_add] at hk
  have hxy : x - y = t := by rw [hy]; ring
  rw [hxy] at hk
  -- the values
  have hvv : v a x ≤ 2 * v a y := by
    refine v_log ?_
    have h1 := log_sub_le hx0 hy0
    have h2 : (a - 1) * (Real.log x - Real.log y) ≤ (a - 1) * ((x - y) / y) := mul_le_mul_of_nonneg_left h1 (by linarith)
    have h3 : (a - 1) * ((x - y) / y) ≤ 1 / 2 := by
      rw [hxy, ← mul_div_assoc, div_le_iff₀ hy0]; linarith
    linarith
  have hvy := v_pos a y
  have hφ : Spec.regGamma a y - p = v a y * g a p y := by rw [g]; field_simp
  have hw := xw_le ha0 hy0
  rw [← v_sq] at hw
  have h1 : v a y * g a p y ≤ v a y * (M * t ^ 2 / 2) := mul_le_mul_of_nonneg_left hk hvy.le
  have h2 : v a y * (M * t ^ 2 / 2) = (t * (1 + a / y)) ^ 2 / 8 * (v a y * v a x * u) := by rw [hM, hgu]; ring
  have h3 : t * (1 + a / y) ≤ s * (a + y) := by
    have : t * (1 + a / y) ≤ s * y * (1 + a / y) := mul_le_mul_of_nonneg_right ht.le (by positivity)
    have e : s * y * (1 + a / y) = s * (a + y) := by field_simp; ring
    linarith
  have h4 : (t * (1 + a / y)) ^ 2 ≤ (s * (a + y)) ^ 2 := pow_le_pow_left₀ (by positivity) h3 2
  have h5 : v a y * v a x * u ≤ 4 * s * a := by
    have h6 : v a y * v a x ≤ 2 * (v a y * v a y) := by
      have := mul_le_mul_of_nonneg_left hvv hvy.le
      linarith
    have h7 : u ≤ 2 * (s * y) := by linarith
    have h8 : v a y * v a x * u ≤ 2 * (v a y * v a y) * (2 * (s * y)) := mul_le_mul h6 h7 hu0.le (by positivity)
    have h9 : s * (y * (v a y * v a y)) ≤ s * a := mul_le_mul_of_nonneg_left hw hs
    linarith
  have h6 : (t * (1 + a / y)) ^ 2 / 8 * (v a y * v a x * u) ≤ (s * (a + y)) ^ 2 / 8 * (4 * s * a) :=
    mul_le_mul (by linarith) h5 (by positivity) (by positivity)
  have h7 : 0 ≤ s ^ 3 * a * (a + y) ^ 2 := by positivity
  have e : (s * (a + y)) ^ 2 / 8 * (4 * s * a) = s ^ 3 * a * (a + y) ^ 2 / 2 := by ring
  rw [hφ]; linarith

set_option maxHeartbeats 800000 in
theorem stop_left (ha : 1 ≤ a) (hr : 0 < r) (hp : Spec.regGamma a r = p) (hx0 : 0 < x) (hx : x < r) {s y : ℝ} (hs : 0 ≤ s)
    (hy : y = x - step a p (Spec.regGamma a x) x) (ht : -step a p (Spec.regGamma a x) x < s * y) (hsa : s * (a + y) ≤ 1 / 2) :
    p - Spec.regGamma a y ≤ 2 * s ^ 3 * a * (a + y) ^ 2 := by
  have ha0 : 0 < a := by linarith
  obtain ⟨t0, t1⟩ := step_left ha hr hp hx0 hx
  have hg := (g_sign ha0 hr hp hx0).2.2.2 hx
  have hv := v_pos a x
  obtain ⟨hh1, hh2⟩ := h_ge ha hx0
  have htd : step a p (Spec.regGamma a x) x = g a p x / v a x / (1 - min 1 (g a p x / v a x * h a x) / 2) := by rw [step, u_eq]
  set t := step a p (Spec.regGamma a x) x with htdef
  set u := g a p x / v a x with hu
  have hu0 : u < 0 := div_neg_of_neg_of_pos hg hv
  have hgu : g a p x = v a x * u := by rw [hu]; field_simp
  have hxy' : x ≤ y := by rw [hy]; linarith
  have hy0 : 0 < y := hx0.trans_le hxy'
  have hyr : y ≤ r := by rw [hy]; linarith
  have hexp : s * (a + y) = s * a + s * y := by ring
  have hsa' : 0 ≤ s * a := mul_nonneg hs ha0.le
  have hsy' : 0 ≤ s * y := mul_nonneg hs hy0.le
  have hsa0 : s * a ≤ 1 / 2 := by linarith
  have hsy : s * y ≤ 1 / 2 := by linarith
  have hsa1 : s * (a - 1) ≤ 1 / 2 := by rw [mul_sub]; linarith
  have hs1 : s ≤ 1 / 2 := by have := mul_le_mul_of_nonneg_left ha hs; linarith
  have hyx2 : y ≤ 2 * x := by have := mul_le_mul_of_nonneg_right hs1 hy0.le; linarith
  -- the denominator is not cut off
  have hun : u * h a x ≤ 1 := by
    by_contra hc
    have hc := not_le.1 hc
    rw [min_eq_left hc.le] at htd
    have h2 : t = 2 * u := by rw [htd]; ring
    nlinarith
  rw [min_eq_right hun] at htd
  have hden : 0 < 1 - u * h a x / 2 := by linarith
  have htu : t * (1 - u * h a x / 2) = u := by rw [htd]; exact div_mul_cancel₀ u hden.ne'
  have hk0 : g a p x - (x - y) * gp a p x = 0 := by
    rw [gp_eq, hy, sub_sub_cancel]
    rw [← hu, hgu]
    linear_combination (-v a x) * htu
  have hu2 : -u ≤ 2 * -t := by
    have h1 : u * ((a - 1) / x) ≤ u * h a x := mul_le_mul_of_nonpos_left hh2 hu0.le
    have h2 : -t * ((a - 1) / x) ≤ 1 := by
      rw [← mul_div_assoc, div_le_one hx0]
      have h3 : -t * (a - 1) ≤ s * y * (a - 1) := mul_le_mul_of_nonneg_right ht.le (by linarith)
      nlinarith
    have h3 : -u ≤ -t * (1 - u * ((a - 1) / x) / 2) := by
      have : -t * (1 - u * h a x / 2) ≤ -t * (1 - u * ((a - 1) / x) / 2) := mul_le_mul_of_nonneg_left (by linarith) (by linarith)
      linarith
    have h4 : -u * (-t * ((a - 1) / x)) ≤ -u * 1 := mul_le_mul_of_nonneg_left h2 (by linarith)
    nlinarith
  -- Taylor
  set M := (1 + a / x) ^ 2 / 4 * (-g a p x) with hM
  have hM0 : 0 ≤ M := mul_nonneg (by positivity) (by linarith)
  have hmono : MonotoneOn (fun z => g a p z - (z - y) * gp a p z + (-M) * (z - y) ^ 2 / 2) (Icc x y) := by
    refine monotoneOn_of_deriv_nonneg (convex_Icc x y) (fun z hz => (k_deriv ha0 (hx0.trans_le hz.1)).continuousAt.continuousWithinAt) (fun z hz => ?_) fun z hz => ?_
    · rw [interior_Icc] at hz; exact (k_deriv ha0 (hx0.trans hz.1)).differentiableAt.differentiableWithinAt
    · rw [interior_Icc] at hz
      have hz0 : 0 < z := hx0.trans hz.1
      rw [(k_deriv ha0 hz0).deriv]
      have h1 : g a p x ≤ g a p z := g_mono ha hr hp hx0 hz0 hz.1.le
      have h2 : g a p z ≤ 0 := (g_sign ha0 hr hp hz0).2.2.1 (hz.2.le.trans hyr)
      have h3 : q a z ≤ (1 + a / x) ^ 2 / 4 := by
        refine (q_le ha hz0).trans ?_
        have : a / z ≤ a / x := div_le_div_of_nonneg_left ha0.le hx0 hz.1.le
        have h4 : 0 ≤ a / z := by positivity
        nlinarith
      have h5 : q a z * (-g a p z) ≤ M := mul_le_mul h3 (by linarith) (by linarith) (by positivity)
      have : 0 ≤ (y - z) * (M - q a z * (-g a p z)) := mul_nonneg (by linarith [hz.2]) (by linarith)
      linarith
  have hk := hmono (left_mem_Icc.2 hxy') (right_mem_Icc.2 hxy') hxy'
  simp only [hk0, sub_self, zero_mul, sub_zero, ne_eq, OfNat.ofNat_ne_zero, not_false_eq_true, zero_pow, mul_zero, zero_div, add_zero, zero_add] at hk
  have hxy : x - y = t := by rw [hy]; ring
  rw [hxy] at hk
  -- the values
  have hvv : v a x ≤ 2 * v a y := by
    refine v_log ?_
    have h1 := Real.log_le_log hx0 hxy'
    have h2 : (a - 1) * (Real.log x - Real.log y) ≤ 0 := mul_nonpos_of_nonneg_of_nonpos (by linarith) (by linarith)
    linarith
  have hvy := v_pos a y
  have hφ : p - Spec.regGamma a y = v a y * (-g a p y) := by rw [g]; field_simp; ring
  have hw := xw_le ha0 hy0
  rw [← v_sq] at hw
  have h1 : v a y * (-g a p y) ≤ v a y * (M * t ^ 2 / 2) := mul_le_mul_of_nonneg_left (by linarith) hvy.le
  have h2 : v a y * (M * t ^ 2 / 2) = (-t * (1 + a / x)) ^ 2 / 8 * (v a y * v a x * (-u)) := by rw [hM, hgu]; ring
  have h3 : -t * (1 + a / x) ≤ 2 * (s * (a + y)) := by
    have h4 : 1 + a / x = (a + x) / x := by field_simp; ring
    rw [h4, ← mul_div_assoc, div_le_iff₀ hx0]
    have h5 : -t * (a + x) ≤ s * (2 * x) * (a + y) := mul_le_mul (ht.le.trans (mul_le_mul_of_nonneg_left hyx2 hs)) (by linarith) (by linarith) (by positivity)
    linarith
  have h4 : (-t * (1 + a / x)) ^ 2 ≤ (2 * (s * (a + y))) ^ 2 := pow_le_pow_left₀ (mul_nonneg (by linarith) (by positivity)) h3 2
  have h5 : v a y * v a x * (-u) ≤ 4 * s * a := by
    have h6 : v a y * v a x ≤ 2 * (v a y * v a y) := by
      have := mul_le_mul_of_nonneg_left hvv hvy.le
      linarith
    have h7 : -u ≤ 2 * (s * y) := by linarith
    have h8 : v a y * v a x * (-u) ≤ 2 * (v a y * v a y) * (2 * (s * y)) := mul_le_mul h6 h7 (by linarith) (by positivity)
    have h9 : s * (y * (v a y * v a y)) ≤ s * a := mul_le_mul_of_nonneg_left hw hs
    linarith
  have h6 : (-t * (1 + a / x)) ^ 2 / 8 * (v a y * v a x * (-u)) ≤ (2 * (s * (a + y))) ^ 2 / 8 * (4 * s * a) :=
    mul_le_mul (by linarith) h5 (mul_nonneg (by positivity) (by linarith)) (by positivity)
  have e : (2 * (s * (a + y))) ^ 2 / 8 * (4 * s * a) = 2 * s ^ 3 * a * (a + y) ^ 2 := by ring
  rw [hφ]; linarith

/-- The error when the step became small. -/
theorem stop (ha : 1 ≤ a) (hr : 0 < r) (hp : Spec.regGamma a r = p) (hx : 0 < x) {s : ℝ} (hs : 0 ≤ s)
    (ht : |step a p (Spec.regGamma a x) x| < s * nxt (Spec.regGamma a) a p x) (hsa : s * (a + nxt (Spec.regGamma a) a p x) ≤ 1 / 2) :
    |Spec.regGamma a (nxt (Spec.regGamma a) a p x) - p| ≤ 2 * s ^ 3 * a * (a + nxt (Spec.regGamma a) a p x) ^ 2 := by
  have ha0 : 0 < a := by linarith
  obtain ⟨e, h1, h2⟩ := nxt_between ha hr hp hx
  have hn := nxt_pos (Spec.regGamma a) a p hx
  have hb : 0 ≤ s ^ 3 * a * (a + nxt (Spec.regGamma a) a p x) ^ 2 := by positivity
  rw [abs_lt] at ht
  set y := nxt (Spec.regGamma a) a p x
  have hm := P_strictMono ha0
  rcases lt_trichotomy x r with h | h | h
  · have h3 := stop_left ha hr hp hx h hs e (by linarith) hsa
    have h4 := (hm.le_iff_le hn hr).2 (h2 h.le).2
    rw [abs_le]; constructor <;> linarith
  · have : y = r := le_antisymm (h2 h.le).2 (h1 h.ge).1
    rw [this, hp, sub_self, abs_zero, ← this]; linarith
  · have h3 := stop_right ha hr hp h hs e (by linarith) hsa
    have h4 := (hm.le_iff_le hr hn).2 (h1 h.le).1
    rw [abs_le]; constructor <;> linarith

end Trng.InvGamma
