import Verif.Proofs.NormalDists
import Mathlib.Analysis.Calculus.MeanValue
import Mathlib.Analysis.Complex.ExponentialBounds
import Mathlib.Analysis.Real.Pi.Bounds

/-! The Newton iteration of maxwell_dist: every step at least halves the error of the probability. -/
namespace Trng.Maxwell
open XR Filter Topology Set
open Classical

/-! ### Increments -/

theorem incr_le {F f : ℝ → ℝ} (hF : ∀ t, HasDerivAt F (f t) t) {a b K : ℝ} (hab : a ≤ b) (h : ∀ t, a ≤ t → t ≤ b → f t ≤ K) :
    F b - F a ≤ K * (b - a) := by
  refine Convex.image_sub_le_mul_sub_of_deriv_le (convex_Icc a b) (fun t _ => (hF t).continuousAt.continuousWithinAt)
    (fun t _ => (hF t).differentiableAt.differentiableWithinAt) (fun t ht => ?_) a ⟨le_rfl, hab⟩ b ⟨hab, le_rfl⟩ hab
  rw [interior_Icc] at ht
  rw [(hF t).deriv]; exact h t ht.1.le ht.2.le
theorem le_incr {F f : ℝ → ℝ} (hF : ∀ t, HasDerivAt F (f t) t) {a b K : ℝ} (hab : a ≤ b) (h : ∀ t, a ≤ t → t ≤ b → K ≤ f t) :
    K * (b - a) ≤ F b - F a := by
  refine Convex.mul_sub_le_image_sub_of_le_deriv (convex_Icc a b) (fun t _ => (hF t).continuousAt.continuousWithinAt)
    (fun t _ => (hF t).differentiableAt.differentiableWithinAt) (fun t ht => ?_) a ⟨le_rfl, hab⟩ b ⟨hab, le_rfl⟩ hab
  rw [interior_Icc] at ht
  rw [(hF t).deriv]; exact h t ht.1.le ht.2.le

/-! ### Bounds of the exponential function -/

theorem exp_neg_bounds {s : ℝ} (hs : 0 ≤ s) :
    Real.exp (-s) ≤ 1 - s + s ^ 2 / 2 ∧ 1 - s + s ^ 2 / 2 - s ^ 3 / 6 ≤ Real.exp (-s) ∧
    Real.exp (-s) ≤ 1 - s + s ^ 2 / 2 - s ^ 3 / 6 + s ^ 4 / 24 := by
  have dE : ∀ t : ℝ, HasDerivAt (fun t => Real.exp (-t)) (-Real.exp (-t)) t := fun t => by
    have := (hasDerivAt_neg t).exp
    simpa using this
  have d1 : ∀ t : ℝ, HasDerivAt (fun t : ℝ => 1 - t + t ^ 2 / 2) (-1 + t) t := fun t => by
    have := ((hasDerivAt_const t (1 : ℝ)).sub (hasDerivAt_id' t)).add ((hasDerivAt_pow 2 t).div_const 2)
    refine this.congr_deriv ?_
    simp
  have d2 : ∀ t : ℝ, HasDerivAt (fun t : ℝ => 1 - t + t ^ 2 / 2 - t ^ 3 / 6) (-1 + t - t ^ 2 / 2) t := fun t => by
    refine ((d1 t).sub ((hasDerivAt_pow 3 t).div_const 6)).congr_deriv ?_
    simp; ring
  have d3 : ∀ t : ℝ, HasDerivAt (fun t : ℝ => 1 - t + t ^ 2 / 2 - t ^ 3 / 6 + t ^ 4 / 24) (-1 + t - t ^ 2 / 2 + t ^ 3 / 6) t := fun t => by
    refine ((d2 t).add ((hasDerivAt_pow 4 t).div_const 24)).congr_deriv ?_
    simp; ring
  have h1 : ∀ s : ℝ, 0 ≤ s → Real.exp (-s) ≤ 1 - s + s ^ 2 / 2 := fun s hs => by
    have := le_incr (fun t => (d1 t).sub (dE t)) (K := 0) hs (fun t _ _ => by linarith [Real.add_one_le_exp (-t)])
    simp at this; linarith
  have h2 : ∀ s : ℝ, 0 ≤ s → 1 - s + s ^ 2 / 2 - s ^ 3 / 6 ≤ Real.exp (-s) := fun s hs => by
    have := le_incr (fun t => (dE t).sub (d2 t)) (K := 0) hs (fun t ht _ => by linarith [h1 t ht])
    simp at this; linarith
  have h3 : ∀ s : ℝ, 0 ≤ s → Real.exp (-s) ≤ 1 - s + s ^ 2 / 2 - s ^ 3 / 6 + s ^ 4 / 24 := fun s hs => by
    have := le_incr (fun t => (d3 t).sub (dE t)) (K := 0) hs (fun t ht _ => by linarith [h2 t ht])
    simp at this; linarith
  exact ⟨h1 s hs, h2 s hs, h3 s hs⟩

/-! ### The distribution with parameter one -/

noncomputable def F (x : ℝ) : ℝ := maxwellF 1 x
noncomputable def f (x : ℝ) : ℝ := maxwellf 1 x
/-- the starting point -/
noncomputable def y0 : ℝ := 2 * Real.sqrt (2 / Real.pi)
noncomputable def ae (a : ℝ) : ℝ := a * Real.exp (-a)

theorem hF (x : ℝ) : HasDerivAt F (f x) x := hasDerivAt_maxwell one_pos x
theorem f_eq (x : ℝ) : f x = 2 * Real.sqrt (2 / Real.pi) * ae (x ^ 2 / 2) := by
  rw [f, maxwellf, ae, show -(x * x) / (2 * (1 * 1)) = -(x ^ 2 / 2) by ring]; ring
theorem f_pos {x : ℝ} (h : 0 < x) : 0 < f x := maxwellf_pos one_pos h.ne'
theorem f_nonneg (x : ℝ) : 0 ≤ f x := by
  rw [f_eq, ae]; positivity
theorem F_zero : F 0 = 0 := maxwellF_zero 1
theorem F_lt_one (x : ℝ) : F x < 1 := maxwellF_lt_one one_pos x
theorem F_pos {x : ℝ} (h : 0 < x) : 0 < F x := maxwellF_pos one_pos h
theorem F_le {x y : ℝ} (h0 : 0 ≤ x) (h : x ≤ y) : F x ≤ F y :=
  (maxwellF_strictMonoOn one_pos).monotoneOn (mem_Ici.2 h0) (mem_Ici.2 (h0.trans h)) h
theorem F_lt {x y : ℝ} (h0 : 0 ≤ x) (h : x < y) : F x < F y :=
  (maxwellF_strictMonoOn one_pos) (mem_Ici.2 h0) (mem_Ici.2 (h0.trans h.le)) h

theorem ae_mono {a b : ℝ} (hab : a ≤ b) (hb : b ≤ 1) : ae a ≤ ae b := by
  rw [ae, ae]
  have h := Real.add_one_le_exp (-(b - a))
  have e : Real.exp (-b) = Real.exp (-(b - a)) * Real.exp (-a) := by rw [← Real.exp_add]; congr 1; ring
  rw [e, ← mul_assoc]
  refine mul_le_mul_of_nonneg_right ?_ (Real.exp_pos _).le
  rcases le_total 0 b with c | c
  · nlinarith
  · have : Real.exp (-(b - a)) ≤ 1 := Real.exp_le_one_iff.2 (by linarith)
    nlinarith
theorem ae_anti {a b : ℝ} (ha : 1 ≤ a) (hab : a ≤ b) : ae b ≤ ae a := by
  rw [ae, ae]
  have h := Real.add_one_le_exp (b - a)
  have e : Real.exp (-a) = Real.exp (b - a) * Real.exp (-b) := by rw [← Real.exp_add]; congr 1; ring
  rw [e, ← mul_assoc]
  refine mul_le_mul_of_nonneg_right ?_ (Real.exp_pos _).le
  nlinarith
theorem ae_le (a : ℝ) : ae a ≤ ae 1 := by
  rcases le_total a 1 with h | h
  · exact ae_mono h le_rfl
  · exact ae_anti le_rfl h

theorem f_mono {t y : ℝ} (h0 : 0 ≤ t) (h : t ≤ y) (hy : y ^ 2 ≤ 2) : f t ≤ f y := by
  rw [f_eq, f_eq]
  exact mul_le_mul_of_nonneg_left (ae_mono (by nlinarith) (by linarith)) (by positivity)
theorem f_anti {t y : ℝ} (h0 : 0 ≤ t) (ht : 2 ≤ t ^ 2) (h : t ≤ y) : f y ≤ f t := by
  rw [f_eq, f_eq]
  exact mul_le_mul_of_nonneg_left (ae_anti (by linarith) (by nlinarith)) (by positivity)

/-- the logarithmic derivative of the density -/
theorem hasDerivAt_f (x : ℝ) : HasDerivAt f (Real.sqrt (2 / Real.pi) * (2 * x - x ^ 3) * Real.exp (-x ^ 2 / 2)) x := by
  have e : f = fun x : ℝ => Real.sqrt (2 / Real.pi) * (x ^ 2 * Real.exp (-x ^ 2 / 2)) := by
    funext x; rw [f_eq, ae, show -(x ^ 2 / 2) = -x ^ 2 / 2 by ring]; ring
  rw [e]
  have d2 : HasDerivAt (fun x : ℝ => -x ^ 2 / 2) (-x) x := by
    refine ((hasDerivAt_pow 2 x).fun_neg.div_const 2).congr_deriv ?_
    simp; ring
  refine (((hasDerivAt_pow 2 x).mul d2.exp).const_mul (Real.sqrt (2 / Real.pi))).congr_deriv ?_
  simp; ring
theorem f_eq' (x : ℝ) : f x = Real.sqrt (2 / Real.pi) * x ^ 2 * Real.exp (-x ^ 2 / 2) := by
  rw [f_eq, ae, show -(x ^ 2 / 2) = -x ^ 2 / 2 by ring]; ring

/-! ### The starting point -/

theorem pi_inv : (1.2732 : ℝ) < 4 / Real.pi ∧ 4 / Real.pi < 1.2733 := by
  have h1 := Real.pi_gt_d4
  have h2 := Real.pi_lt_d4
  constructor
  · rw [lt_div_iff₀ Real.pi_pos]; nlinarith
  · rw [div_lt_iff₀ Real.pi_pos]; nlinarith
theorem y0_sq : y0 ^ 2 = 2 * (4 / Real.pi) := by
  rw [y0, mul_pow, Real.sq_sqrt (by positivity)]; ring
theorem y0_nonneg : 0 ≤ y0 := by unfold y0; positivity
theorem y0_bounds : (1.595 : ℝ) < y0 ∧ y0 < 1.6 := by
  obtain ⟨h1, h2⟩ := pi_inv
  have := y0_sq
  have h0 := y0_nonneg
  constructor <;> nlinarith
theorem two_le_y0 : 2 ≤ y0 ^ 2 := by rw [y0_sq]; linarith [pi_inv.1]

theorem erf_start : erfR (2 / Real.sqrt Real.pi) ≤ 0.893 := by
  obtain ⟨h1, h2⟩ := pi_inv
  have hs : (0 : ℝ) < Real.sqrt Real.pi := by positivity
  have dP : ∀ t : ℝ, HasDerivAt (fun t : ℝ => 2 / Real.sqrt Real.pi * (t - t ^ 3 / 3 + t ^ 5 / 10 - t ^ 7 / 42 + t ^ 9 / 216))
      (2 / Real.sqrt Real.pi * (1 - t ^ 2 + t ^ 4 / 2 - t ^ 6 / 6 + t ^ 8 / 24)) t := fun t => by
    have := ((((hasDerivAt_id' t).sub ((hasDerivAt_pow 3 t).div_const 3)).add ((hasDerivAt_pow 5 t).div_const 10)).sub
      ((hasDerivAt_pow 7 t).div_const 42)).add ((hasDerivAt_pow 9 t).div_const 216)
    refine (this.const_mul (2 / Real.sqrt Real.pi)).congr_deriv ?_
    simp; ring_nf; simp
  have := le_incr (fun t => (dP t).sub (hasDerivAt_erfR t)) (K := 0) (a := 0) (b := 2 / Real.sqrt Real.pi) (by positivity) (fun t _ _ => by
    rw [sub_nonneg]
    refine mul_le_mul_of_nonneg_left ?_ (by positivity)
    have := (exp_neg_bounds (sq_nonneg t)).2.2
    calc Real.exp (-t ^ 2) = Real.exp (-(t ^ 2)) := rfl
      _ ≤ _ := this
      _ = _ := by ring)
  have hb : (2 / Real.sqrt Real.pi) ^ 2 = 4 / Real.pi := by rw [div_pow, Real.sq_sqrt Real.pi_pos.le]; norm_num
  simp only [Pi.sub_apply, erfR_zero] at this
  set b := 2 / Real.sqrt Real.pi
  have e : b * (b - b ^ 3 / 3 + b ^ 5 / 10 - b ^ 7 / 42 + b ^ 9 / 216) =
      b ^ 2 - (b ^ 2) ^ 2 / 3 + (b ^ 2) ^ 3 / 10 - (b ^ 2) ^ 4 / 42 + (b ^ 2) ^ 5 / 216 := by ring
  rw [e, hb] at this
  set B := 4 / Real.pi
  have p2 : 1.2732 ^ 2 ≤ B ^ 2 := pow_le_pow_left₀ (by norm_num) h1.le 2
  have p3 : B ^ 3 ≤ 1.2733 ^ 3 := pow_le_pow_left₀ (by linarith) h2.le 3
  have p4 : 1.2732 ^ 4 ≤ B ^ 4 := pow_le_pow_left₀ (by norm_num) h1.le 4
  have p5 : B ^ 5 ≤ 1.2733 ^ 5 := pow_le_pow_left₀ (by linarith) h2.le 5
  norm_num at this p2 p3 p4 p5 h2 ⊢
  linarith

theorem exp_start : (0.2795 : ℝ) ≤ Real.exp (-(4 / Real.pi)) := by
  obtain ⟨h1, h2⟩ := pi_inv
  have hs := (exp_neg_bounds (s := 4 / Real.pi - 1) (by linarith)).2.1
  set B := 4 / Real.pi
  have h3 : 0.76 ≤ Real.exp (-(B - 1)) := by
    refine le_trans ?_ hs
    nlinarith [mul_self_nonneg (B - 1), mul_nonneg (sub_nonneg.2 h1.le) (sub_nonneg.2 h2.le)]
  have h4 : Real.exp (-B) = Real.exp (-1) * Real.exp (-(B - 1)) := by rw [← Real.exp_add]; congr 1; ring
  have h5 : 0.36787 ≤ Real.exp (-1) := by linarith [Real.exp_neg_one_gt_d9]
  rw [h4]
  calc (0.2795 : ℝ) ≤ 0.36787 * 0.76 := by norm_num
    _ ≤ _ := mul_le_mul h5 h3 (by norm_num) (Real.exp_pos _).le

/-- the first step does not leave the positive half-axis -/
theorem F_y0 : F y0 ≤ 0.6 * (y0 * f y0) := by
  have hs : (0 : ℝ) < Real.sqrt Real.pi := by positivity
  have h2 : Real.sqrt 2 * Real.sqrt 2 = 2 := Real.mul_self_sqrt (by norm_num)
  have e1 : y0 / Real.sqrt 2 / 1 = 2 / Real.sqrt Real.pi := by
    rw [y0, Real.sqrt_div (by norm_num)]
    have : (0 : ℝ) < Real.sqrt 2 := by positivity
    field_simp
  have e2 : Real.sqrt (2 / Real.pi) * y0 = 4 / Real.pi := by
    rw [y0, show Real.sqrt (2 / Real.pi) * (2 * Real.sqrt (2 / Real.pi)) = 2 * (Real.sqrt (2 / Real.pi) * Real.sqrt (2 / Real.pi)) by ring,
      Real.mul_self_sqrt (by positivity)]; ring
  have e3 : -y0 * y0 / (2 * 1 * 1) = -(4 / Real.pi) := by
    have := y0_sq
    rw [show -y0 * y0 / (2 * 1 * 1) = -(y0 ^ 2) / 2 by ring, this]; ring
  have e4 : y0 * f y0 = 2 * (4 / Real.pi) * (4 / Real.pi) * Real.exp (-(4 / Real.pi)) := by
    rw [f_eq', show -y0 ^ 2 / 2 = -(4 / Real.pi) by rw [y0_sq]; ring]
    calc y0 * (Real.sqrt (2 / Real.pi) * y0 ^ 2 * Real.exp (-(4 / Real.pi))) = (Real.sqrt (2 / Real.pi) * y0) * y0 ^ 2 * Real.exp (-(4 / Real.pi)) := by ring
      _ = _ := by rw [e2, y0_sq]; ring
  rw [F, maxwellF, e1, e2, e3, e4]
  have h1 := erf_start
  have h3 := exp_start
  obtain ⟨p1, p2⟩ := pi_inv
  set B := 4 / Real.pi
  have : 0.893 ≤ (B + 1.2 * B * B) * Real.exp (-B) := by
    calc (0.893 : ℝ) ≤ (1.2732 + 1.2 * 1.2732 * 1.2732) * 0.2795 := by norm_num
      _ ≤ (B + 1.2 * B * B) * Real.exp (-B) := by gcongr
  linarith

theorem F_le_of {y : ℝ} (h0 : 0 ≤ y) (h1 : y ≤ y0) : F y ≤ 0.6 * (y * f y) := by
  have dk : ∀ t : ℝ, HasDerivAt (fun t => 0.6 * (t * f t) - F t) (f t * (0.8 - 0.6 * t ^ 2)) t := fun t => by
    refine ((((hasDerivAt_id' t).mul (hasDerivAt_f t)).const_mul 0.6).sub (hF t)).congr_deriv ?_
    rw [f_eq']; ring
  rcases le_total (y ^ 2) (4 / 3) with c | c
  · have := le_incr dk (K := 0) h0 (fun t t0 t1 => mul_nonneg (f_nonneg t) (by nlinarith))
    rw [F_zero] at this
    linarith
  · have := incr_le dk (K := 0) h1 (fun t t0 t1 => mul_nonpos_of_nonneg_of_nonpos (f_nonneg t) (by nlinarith))
    linarith [F_y0]

theorem f_le_max (t : ℝ) : f t ≤ 1.04 * f y0 := by
  have h : ae 1 ≤ 1.04 * ae (4 / Real.pi) := by
    obtain ⟨h1, h2⟩ := pi_inv
    have hs := (exp_neg_bounds (s := 4 / Real.pi - 1) (by linarith)).2.1
    rw [ae, ae]
    set B := 4 / Real.pi
    have h3 : 0.76 ≤ Real.exp (-(B - 1)) := by
      refine le_trans ?_ hs
      nlinarith [mul_self_nonneg (B - 1), mul_nonneg (sub_nonneg.2 h1.le) (sub_nonneg.2 h2.le)]
    have h4 : Real.exp (-B) = Real.exp (-(B - 1)) * Real.exp (-1) := by rw [← Real.exp_add]; congr 1; ring
    rw [h4, ← mul_assoc, ← mul_assoc]
    refine mul_le_mul_of_nonneg_right ?_ (Real.exp_pos _).le
    nlinarith
  rw [f_eq, f_eq, show y0 ^ 2 / 2 = 4 / Real.pi by rw [y0_sq]; ring]
  have := (ae_le (t ^ 2 / 2)).trans h
  have hp : (0 : ℝ) ≤ 2 * Real.sqrt (2 / Real.pi) := by positivity
  nlinarith

/-! ### Steps to the left -/

/-- the average of the density over a step to the left is at least half the density at its start -/
theorem avg_left {y y' : ℝ} (h0 : 0 < y) (h1 : 0.4 * y ≤ y') (h2 : y' ≤ y) : 1 / 2 * f y * (y - y') ≤ F y - F y' := by
  have dc : ∀ t : ℝ, HasDerivAt (fun t => F t - f y / y ^ 2 * (t ^ 3 / 3)) (f t - f y / y ^ 2 * t ^ 2) t := fun t => by
    refine ((hF t).sub (((hasDerivAt_pow 3 t).div_const 3).const_mul (f y / y ^ 2))).congr_deriv ?_
    simp
  have := le_incr dc (K := 0) h2 (fun t t0 t1 => by
    rw [sub_nonneg, f_eq', f_eq']
    have hy : y ^ 2 ≠ 0 := by positivity
    rw [show Real.sqrt (2 / Real.pi) * y ^ 2 * Real.exp (-y ^ 2 / 2) / y ^ 2 * t ^ 2 = Real.sqrt (2 / Real.pi) * t ^ 2 * Real.exp (-y ^ 2 / 2) by
      field_simp]
    refine mul_le_mul_of_nonneg_left (Real.exp_le_exp.2 ?_) (by positivity)
    have : 0 ≤ t := by nlinarith
    nlinarith)
  have hf := f_pos h0
  have e : f y / y ^ 2 * (y ^ 3 / 3) - f y / y ^ 2 * (y' ^ 3 / 3) = f y * (y - y') * ((y ^ 2 + y * y' + y' ^ 2) / (3 * y ^ 2)) := by
    field_simp; ring
  have h3 : 1 / 2 ≤ (y ^ 2 + y * y' + y' ^ 2) / (3 * y ^ 2) := by
    rw [le_div_iff₀ (by positivity)]
    nlinarith
  have h4 : 0 ≤ f y * (y - y') := mul_nonneg hf.le (by linarith)
  nlinarith

/-! ### Steps in the tail -/

theorem tail_ratio {y : ℝ} (hy : 0 < y) (h2 : 2 < y ^ 2) : (1 - F y) * (y ^ 2 - 2) ≤ y * f y := by
  have dq : ∀ t : ℝ, y ≤ t → HasDerivAt (fun t => F t + t * f t / (t ^ 2 - 2)) (-(f t * (t ^ 2 + 2) / (t ^ 2 - 2) ^ 2)) t := fun t ht => by
    have hne : t ^ 2 - 2 ≠ 0 := by nlinarith
    have d1 : HasDerivAt (fun t : ℝ => t ^ 2 - 2) (2 * t) t := by
      refine ((hasDerivAt_pow 2 t).sub_const 2).congr_deriv ?_
      simp
    refine ((hF t).add (((hasDerivAt_id' t).mul (hasDerivAt_f t)).div d1 hne)).congr_deriv ?_
    have : t * (Real.sqrt (2 / Real.pi) * (2 * t - t ^ 3) * Real.exp (-t ^ 2 / 2)) = (2 - t ^ 2) * f t := by rw [f_eq']; ring
    simp only [Pi.mul_apply, one_mul]
    rw [this]
    field_simp
    ring
  have hle : ∀ t, y ≤ t → F t ≤ F y + y * f y / (y ^ 2 - 2) := by
    intro t ht
    have hanti : AntitoneOn (fun t => F t + t * f t / (t ^ 2 - 2)) (Ici y) := by
      refine antitoneOn_of_deriv_nonpos (convex_Ici y) (fun t ht => (dq t ht).continuousAt.continuousWithinAt) (fun t ht => ?_) (fun t ht => ?_)
      · rw [interior_Ici] at ht
        exact (dq t (le_of_lt ht)).differentiableAt.differentiableWithinAt
      · rw [interior_Ici] at ht
        rw [(dq t (le_of_lt ht)).deriv]
        have := f_nonneg t
        have : 0 ≤ f t * (t ^ 2 + 2) / (t ^ 2 - 2) ^ 2 := by positivity
        linarith
    have h := hanti (mem_Ici.2 le_rfl) (mem_Ici.2 ht) ht
    simp only at h
    have h3 : 0 ≤ t * f t / (t ^ 2 - 2) := div_nonneg (mul_nonneg (by linarith) (f_nonneg t)) (by nlinarith)
    linarith
  have hlim : 1 ≤ F y + y * f y / (y ^ 2 - 2) := le_of_tendsto (tendsto_maxwellF one_pos) (by
    filter_upwards [eventually_ge_atTop y] with t ht
    exact hle t ht)
  have hp : 0 < y ^ 2 - 2 := by linarith
  have : 1 - F y ≤ y * f y / (y ^ 2 - 2) := by linarith
  rwa [le_div_iff₀ hp] at this

/-- the tail falls off at least as fast as an exponential function -/
theorem tail_exp {y t : ℝ} (hy : 0 < y) (h2 : 2 ≤ y ^ 2) (ht : y ≤ t) : 1 - F t ≤ (1 - F y) * Real.exp (-(f y / (1 - F y) * (t - y))) := by
  have hG : ∀ t, 0 < 1 - F t := fun t => by linarith [F_lt_one t]
  have hrho : ∀ t, y ≤ t → (1 - F t) / f t ≤ (1 - F y) / f y := by
    intro t ht
    have dr : ∀ s, y ≤ s → HasDerivAt (fun s => (1 - F s) / f s) ((-(f s * f s) - (1 - F s) * (Real.sqrt (2 / Real.pi) * (2 * s - s ^ 3) * Real.exp (-s ^ 2 / 2))) / f s ^ 2) s := fun s hs => by
      have hfs := f_pos (hy.trans_le hs)
      refine (((hasDerivAt_const s (1 : ℝ)).sub (hF s)).div (hasDerivAt_f s) hfs.ne').congr_deriv ?_
      simp
    have hanti : AntitoneOn (fun s => (1 - F s) / f s) (Ici y) := by
      refine antitoneOn_of_deriv_nonpos (convex_Ici y) (fun s hs => (dr s hs).continuousAt.continuousWithinAt) (fun s hs => ?_) (fun s hs => ?_)
      · rw [interior_Ici] at hs
        exact (dr s (le_of_lt hs)).differentiableAt.differentiableWithinAt
      · rw [interior_Ici] at hs
        have hs' : y < s := hs
        rw [(dr s (le_of_lt hs)).deriv]
        refine div_nonpos_of_nonpos_of_nonneg ?_ (sq_nonneg _)
        have hs0 : 0 < s := hy.trans hs'
        have h3 := tail_ratio hs0 (by nlinarith)
        have hfs := f_pos hs0
        have e : s * (Real.sqrt (2 / Real.pi) * (2 * s - s ^ 3) * Real.exp (-s ^ 2 / 2)) = (2 - s ^ 2) * f s := by rw [f_eq']; ring
        have : s * (-(f s * f s) - (1 - F s) * (Real.sqrt (2 / Real.pi) * (2 * s - s ^ 3) * Real.exp (-s ^ 2 / 2))) ≤ 0 := by
          rw [show s * (-(f s * f s) - (1 - F s) * (Real.sqrt (2 / Real.pi) * (2 * s - s ^ 3) * Real.exp (-s ^ 2 / 2)))
            = -(s * f s * f s) - (1 - F s) * (s * (Real.sqrt (2 / Real.pi) * (2 * s - s ^ 3) * Real.exp (-s ^ 2 / 2))) by ring, e]
          nlinarith
        nlinarith
    exact hanti (mem_Ici.2 le_rfl) (mem_Ici.2 ht) ht
  set h := f y / (1 - F y)
  have dg : ∀ s : ℝ, HasDerivAt (fun s => (1 - F s) * Real.exp (h * s)) (Real.exp (h * s) * (h * (1 - F s) - f s)) s := fun s => by
    have d1 : HasDerivAt (fun s : ℝ => h * s) h s := by simpa using (hasDerivAt_id s).const_mul h
    refine (((hasDerivAt_const s (1 : ℝ)).sub (hF s)).mul d1.exp).congr_deriv ?_
    simp; ring
  have := incr_le dg (K := 0) ht (fun s s0 _ => mul_nonpos_of_nonneg_of_nonpos (Real.exp_pos _).le (by
    have hfs := f_pos (hy.trans_le s0)
    have hfy := f_pos hy
    have h1 := hrho s s0
    rw [div_le_div_iff₀ hfs hfy] at h1
    have : h * (1 - F s) ≤ f s := by
      rw [show h * (1 - F s) = (1 - F s) * f y / (1 - F y) by simp only [h]; ring, div_le_iff₀ (hG y)]
      linarith
    linarith))
  have e : Real.exp (-(h * (t - y))) = Real.exp (h * y) / Real.exp (h * t) := by rw [← Real.exp_sub]; congr 1; ring
  rw [e, ← mul_div_assoc, le_div_iff₀ (Real.exp_pos _)]
  linarith

/-! ### One step -/

/-- the Newton step -/
noncomputable def newton (u y : ℝ) : ℝ := y - (F y - u) / f y

theorem newton_eq {u y : ℝ} (h : 0 < y) : f y * (y - newton u y) = F y - u := by
  have := f_pos h
  rw [newton]; field_simp; ring

/-- left of the solution, in the tail -/
theorem step_tail {y z : ℝ} (hy : 0 < y) (h2 : 2 ≤ y ^ 2) (hz : y ≤ z) :
    y ≤ newton (F z) y ∧ newton (F z) y ≤ z ∧ |F (newton (F z) y) - F z| ≤ |F y - F z| / 2 := by
  have hf := f_pos hy
  have hn := newton_eq (u := F z) hy
  set y' := newton (F z) y
  have hyz := F_le hy.le hz
  have a1 : y ≤ y' := by
    by_contra hc
    push Not at hc
    have := mul_pos hf (sub_pos.2 hc)
    linarith
  have hup := incr_le hF hz (fun t t0 _ => f_anti hy.le h2 t0)
  have a2 : y' ≤ z := by
    by_contra hc
    push Not at hc
    nlinarith
  refine ⟨a1, a2, ?_⟩
  have hle := F_le (hy.le.trans a1) a2
  rw [abs_of_nonpos (by linarith), abs_of_nonpos (by linarith)]
  have hG : 0 < 1 - F y := by linarith [F_lt_one y]
  have ht := tail_exp hy h2 a1
  set D := F z - F y
  have hD0 : 0 ≤ D := by simp only [D]; linarith
  have hD1 : D ≤ 1 - F y := by simp only [D]; linarith [F_lt_one z]
  have e : f y / (1 - F y) * (y' - y) = D / (1 - F y) := by
    rw [div_mul_eq_mul_div, show f y * (y' - y) = D by simp only [D]; linarith]
  rw [e] at ht
  have hexp := (exp_neg_bounds (s := D / (1 - F y)) (div_nonneg hD0 hG.le)).1
  have h3 : 1 - F y' ≤ (1 - F y) - D + D * (D / (1 - F y)) / 2 := by
    refine ht.trans ((mul_le_mul_of_nonneg_left hexp hG.le).trans (le_of_eq ?_))
    field_simp
  have h4 : D / (1 - F y) ≤ 1 := (div_le_one hG).2 hD1
  have h5 : D * (D / (1 - F y)) ≤ D := by nlinarith
  simp only [D] at *
  linarith

/-- right of the solution, where the density grows -/
theorem step_convex {y z : ℝ} (hz : 0 < z) (hzy : z ≤ y) (h2 : y ^ 2 ≤ 2) :
    z ≤ newton (F z) y ∧ newton (F z) y ≤ y ∧ |F (newton (F z) y) - F z| ≤ |F y - F z| / 2 := by
  have hy : 0 < y := hz.trans_le hzy
  have hf := f_pos hy
  have hn := newton_eq (u := F z) hy
  set y' := newton (F z) y
  have hyz := F_le hz.le hzy
  have hup := incr_le hF hzy (fun t t0 t1 => f_mono (hz.le.trans t0) t1 h2)
  have a1 : z ≤ y' := by
    by_contra hc
    push Not at hc
    nlinarith
  have a2 : y' ≤ y := by
    by_contra hc
    push Not at hc
    nlinarith
  have a3 : 0.4 * y ≤ y' := by
    have h3 := F_le_of hy.le (by nlinarith [two_le_y0, y0_nonneg])
    have := F_pos hz
    nlinarith
  refine ⟨a1, a2, ?_⟩
  have hle := F_le hz.le a1
  have := avg_left hy a3 a2
  rw [abs_of_nonneg (by linarith), abs_of_nonneg (by linarith)]
  nlinarith

/-- close to the solution -/
theorem near_ratio {y t : ℝ} (h0 : 0.6 ≤ y) (h1 : y ≤ 1.65) (h : |t - y| ≤ 0.06) : 0.65 * f y ≤ f t ∧ f t ≤ 1.35 * f y := by
  obtain ⟨a, b⟩ := abs_le.1 h
  have hp : (0 : ℝ) < Real.sqrt (2 / Real.pi) := by positivity
  have e : f t = Real.sqrt (2 / Real.pi) * t ^ 2 * (Real.exp ((y ^ 2 - t ^ 2) / 2) * Real.exp (-y ^ 2 / 2)) := by
    rw [f_eq', ← Real.exp_add]; congr 2; ring
  have hd : |(y ^ 2 - t ^ 2) / 2| ≤ 0.101 := by
    rw [abs_le]; constructor <;> nlinarith
  obtain ⟨c, d⟩ := abs_le.1 hd
  have e1 : Real.exp ((y ^ 2 - t ^ 2) / 2) ≤ 1.1075 := by
    have h3 := Real.exp_bound' (x := 0.101) (by norm_num) (by norm_num) (n := 3) (by norm_num)
    refine (Real.exp_le_exp.2 d).trans (h3.trans ?_)
    norm_num [Finset.sum_range_succ, Nat.factorial]
  have e2 : 0.899 ≤ Real.exp ((y ^ 2 - t ^ 2) / 2) := by
    linarith [Real.add_one_le_exp ((y ^ 2 - t ^ 2) / 2)]
  have t1 : 0.81 * y ^ 2 ≤ t ^ 2 := by nlinarith
  have t2 : t ^ 2 ≤ 1.21 * y ^ 2 := by nlinarith
  have hE := Real.exp_pos (-y ^ 2 / 2)
  set E := Real.exp ((y ^ 2 - t ^ 2) / 2)
  rw [e, f_eq']
  have k1 : 0.65 * y ^ 2 ≤ t ^ 2 * E := by nlinarith [sq_nonneg y]
  have k2 : t ^ 2 * E ≤ 1.35 * y ^ 2 := by nlinarith [sq_nonneg y, sq_nonneg t]
  have hpe : 0 < Real.sqrt (2 / Real.pi) * Real.exp (-y ^ 2 / 2) := mul_pos hp hE
  constructor
  · calc 0.65 * (Real.sqrt (2 / Real.pi) * y ^ 2 * Real.exp (-y ^ 2 / 2)) = Real.sqrt (2 / Real.pi) * Real.exp (-y ^ 2 / 2) * (0.65 * y ^ 2) := by ring
      _ ≤ Real.sqrt (2 / Real.pi) * Real.exp (-y ^ 2 / 2) * (t ^ 2 * E) := mul_le_mul_of_nonneg_left k1 hpe.le
      _ = _ := by ring
  · calc Real.sqrt (2 / Real.pi) * t ^ 2 * (E * Real.exp (-y ^ 2 / 2)) = Real.sqrt (2 / Real.pi) * Real.exp (-y ^ 2 / 2) * (t ^ 2 * E) := by ring
      _ ≤ Real.sqrt (2 / Real.pi) * Real.exp (-y ^ 2 / 2) * (1.35 * y ^ 2) := mul_le_mul_of_nonneg_left k2 hpe.le
      _ = _ := by ring

/-- increments close to the solution -/
theorem near_incr {y t : ℝ} (h0 : 0.6 ≤ y) (h1 : y ≤ 1.65) (h : |t - y| ≤ 0.06) : |F y - F t - f y * (y - t)| ≤ 0.35 * f y * |y - t| := by
  obtain ⟨a, b⟩ := abs_le.1 h
  rcases le_total t y with c | c
  · have u := incr_le hF c (fun s s0 s1 => (near_ratio h0 h1 (t := s) (abs_le.2 ⟨by linarith, by linarith⟩)).2)
    have l := le_incr hF c (fun s s0 s1 => (near_ratio h0 h1 (t := s) (abs_le.2 ⟨by linarith, by linarith⟩)).1)
    rw [abs_of_nonneg (by linarith : 0 ≤ y - t), abs_le]
    constructor <;> linarith
  · have u := incr_le hF c (fun s s0 s1 => (near_ratio h0 h1 (t := s) (abs_le.2 ⟨by linarith, by linarith⟩)).2)
    have l := le_incr hF c (fun s s0 s1 => (near_ratio h0 h1 (t := s) (abs_le.2 ⟨by linarith, by linarith⟩)).1)
    rw [abs_of_nonpos (by linarith : y - t ≤ 0), abs_le]
    constructor <;> linarith

theorem step_near {y z : ℝ} (h0 : 0.6 ≤ y) (h1 : y ≤ 1.65) (h : |y - z| ≤ 0.04) :
    |newton (F z) y - z| ≤ 0.35 * |y - z| ∧ |F (newton (F z) y) - F z| ≤ |F y - F z| / 2 := by
  have hy : 0 < y := by linarith
  have hf := f_pos hy
  have hn := newton_eq (u := F z) hy
  set y' := newton (F z) y
  have k := near_incr h0 h1 (t := z) (by rw [abs_sub_comm]; linarith)
  have hd : |y' - z| ≤ 0.35 * |y - z| := by
    have e : F y - F z - f y * (y - z) = -(f y * (y' - z)) := by linarith
    rw [e, abs_neg, abs_mul, abs_of_pos hf] at k
    have : f y * |y' - z| ≤ f y * (0.35 * |y - z|) := by linarith
    exact le_of_mul_le_mul_left this hf
  refine ⟨hd, ?_⟩
  have hd2 : |y' - y| ≤ 0.06 := by
    have := abs_add_le (y' - z) (z - y)
    rw [show y' - z + (z - y) = y' - y by ring, abs_sub_comm z y] at this
    linarith
  have k2 := near_incr h0 h1 hd2
  rw [hn, show F y - F y' - (F y - F z) = -(F y' - F z) by ring, abs_neg] at k2
  have e : |F y - F z| = f y * |y - y'| := by rw [← hn, abs_mul, abs_of_pos hf]
  rw [e]
  have := mul_nonneg hf.le (abs_nonneg (y - y'))
  nlinarith

/-! ### All steps -/

/-- the points the iteration for the solution `z` can reach -/
def Good (z y : ℝ) : Prop :=
  (y0 ≤ y ∧ y ≤ z) ∨ (y = y0 ∧ z ≤ y0) ∨ (z ≤ y ∧ y ^ 2 ≤ 2) ∨ (0.6 ≤ y ∧ y ≤ 1.65 ∧ 0.62 ≤ z ∧ z ≤ 1.6 ∧ |y - z| ≤ 0.04)

theorem Good.pos {z y : ℝ} (hz : 0 < z) (h : Good z y) : 0 < y := by
  have := y0_bounds
  rcases h with ⟨a, _⟩ | ⟨a, _⟩ | ⟨a, _⟩ | ⟨a, _⟩ <;> linarith

theorem good_start (z : ℝ) : Good z y0 := by
  rcases le_total y0 z with h | h
  · exact Or.inl ⟨le_rfl, h⟩
  · exact Or.inr (Or.inl ⟨rfl, h⟩)

theorem step_start {z : ℝ} (hz : 0 < z) (h : z ≤ y0) :
    Good z (newton (F z) y0) ∧ |F (newton (F z) y0) - F z| ≤ |F y0 - F z| / 2 := by
  obtain ⟨b1, b2⟩ := y0_bounds
  have hy : 0 < y0 := by linarith
  have hf := f_pos hy
  have hn := newton_eq (u := F z) hy
  set y' := newton (F z) y0
  have hyz := F_le hz.le h
  have hFz := F_pos hz
  have a1 : y' ≤ y0 := by
    by_contra hc
    push Not at hc
    nlinarith
  have a2 : 0.4 * y0 ≤ y' := by nlinarith [F_y0]
  have hav := avg_left hy a2 a1
  have hup := incr_le hF a1 (fun t _ _ => f_le_max t)
  have hpos : 0 ≤ f y0 * (y0 - y') := mul_nonneg hf.le (by linarith)
  have hy' : 0.63 ≤ y' := by linarith
  constructor
  · rcases le_total z y' with c | c
    · rcases le_total (y' ^ 2) 2 with d | d
      · exact Or.inr (Or.inr (Or.inl ⟨c, d⟩))
      · have hlow := le_incr hF a1 (fun t t0 t1 => f_anti (by linarith : 0 ≤ t) (by nlinarith) t1)
        have : F y' ≤ F z := by linarith
        have hzz : y' ≤ z := by
          by_contra hc
          push Not at hc
          linarith [F_lt hz.le hc]
        have hzy : y' = z := le_antisymm hzz c
        rw [hzy] at hy' a1 ⊢
        exact Or.inr (Or.inr (Or.inr ⟨by linarith, by linarith, by linarith, by linarith, by rw [sub_self, abs_zero]; norm_num⟩))
    · have hup2 := incr_le hF h (fun t _ _ => f_le_max t)
      have : z - y' ≤ 0.04 := by
        have h3 : f y0 * (y0 - y') ≤ f y0 * (1.04 * (y0 - z)) := by linarith
        have h4 := le_of_mul_le_mul_left h3 hf
        linarith
      exact Or.inr (Or.inr (Or.inr ⟨by linarith, by linarith, by linarith, by linarith, abs_le.2 ⟨by linarith, by linarith⟩⟩))
  · rw [abs_of_nonneg (by linarith : 0 ≤ F y0 - F z), abs_le]
    constructor <;> nlinarith

theorem good_step {z y : ℝ} (hz : 0 < z) (h : Good z y) :
    Good z (newton (F z) y) ∧ |F (newton (F z) y) - F z| ≤ |F y - F z| / 2 := by
  rcases h with ⟨a, b⟩ | ⟨a, b⟩ | ⟨a, b⟩ | ⟨a, b, c, d, e⟩
  · have hy : 0 < y := by linarith [y0_bounds.1]
    obtain ⟨h1, h2, h3⟩ := step_tail hy (by nlinarith [two_le_y0, y0_nonneg]) b
    exact ⟨Or.inl ⟨a.trans h1, h2⟩, h3⟩
  · rw [a]; exact step_start hz b
  · obtain ⟨h1, h2, h3⟩ := step_convex hz a b
    exact ⟨Or.inr (Or.inr (Or.inl ⟨h1, by nlinarith⟩)), h3⟩
  · obtain ⟨h1, h2⟩ := step_near a b e
    obtain ⟨k1, k2⟩ := abs_le.1 (show |newton (F z) y - z| ≤ 0.014 by linarith)
    exact ⟨Or.inr (Or.inr (Or.inr ⟨by linarith, by linarith, c, d, abs_le.2 ⟨by linarith, by linarith⟩⟩)), h2⟩

theorem good_third {z y : ℝ} (hz : 0 < z) (h : Good z y) : y / 3 ≤ newton (F z) y := by
  have hy := h.pos hz
  have hf := f_pos hy
  have hFz := F_pos hz
  have hn := newton_eq (u := F z) hy
  have key : y ≤ y0 → y / 3 ≤ newton (F z) y := by
    intro hle
    have := F_le_of hy.le hle
    have h3 : f y * (y - newton (F z) y) ≤ f y * (0.6 * y) := by linarith
    linarith [le_of_mul_le_mul_left h3 hf]
  rcases h with ⟨a, b⟩ | ⟨a, b⟩ | ⟨a, b⟩ | ⟨a, b, c, d, e⟩
  · obtain ⟨h1, -, -⟩ := step_tail hy (by nlinarith [two_le_y0, y0_nonneg]) b
    linarith
  · exact key a.le
  · exact key (by nlinarith [two_le_y0, y0_nonneg])
  · obtain ⟨h1, h2⟩ := step_near a b e
    obtain ⟨k1, k2⟩ := abs_le.1 (show |newton (F z) y - z| ≤ 0.014 by linarith)
    linarith

theorem yf_le {y : ℝ} (h : 0 ≤ y) : y * f y ≤ 1 := by
  have h1 := ae_le (y ^ 2 / 3)
  have hp0 : 0 ≤ ae (y ^ 2 / 3) := by unfold ae; positivity
  have h2 : ae 1 ≤ 0.3679 := by
    rw [ae, one_mul]; linarith [Real.exp_neg_one_lt_d9]
  have e : (y * f y) ^ 2 = 2 / Real.pi * (27 * ae (y ^ 2 / 3) ^ 3) := by
    rw [f_eq', ae, mul_pow, mul_pow, mul_pow, Real.sq_sqrt (by positivity), mul_pow, ← Real.exp_nat_mul, ← Real.exp_nat_mul]
    rw [show ((2 : ℕ) : ℝ) * (-y ^ 2 / 2) = ((3 : ℕ) : ℝ) * -(y ^ 2 / 3) by push_cast; ring]
    ring
  have h3 : ae (y ^ 2 / 3) ^ 3 ≤ 0.3679 ^ 3 := pow_le_pow_left₀ hp0 (h1.trans h2) 3
  have h4 : (y * f y) ^ 2 ≤ 1 := by
    rw [e]
    have := pi_inv.2
    have h5 : 2 / Real.pi ≤ 0.6367 := by
      rw [show 2 / Real.pi = 4 / Real.pi / 2 by ring]; linarith
    calc 2 / Real.pi * (27 * ae (y ^ 2 / 3) ^ 3) ≤ 0.6367 * (27 * 0.3679 ^ 3) := by gcongr
      _ ≤ 1 := by norm_num
  have h5 : 0 ≤ y * f y := mul_nonneg h (f_nonneg y)
  nlinarith

/-! ### The code -/

theorem maxwellF_scale {t : ℝ} (ht : 0 < t) (y : ℝ) : maxwellF t (t * y) = F y := by
  rw [F, maxwellF, maxwellF]
  have e : t * y / Real.sqrt 2 / t = y / Real.sqrt 2 / 1 := by field_simp
  have e2 : -(t * y) * (t * y) / (2 * t * t) = -y * y / (2 * 1 * 1) := by field_simp
  rw [e, e2]; field_simp
theorem maxwellf_scale {t : ℝ} (ht : 0 < t) (y : ℝ) : maxwellf t (t * y) = f y / t := by
  rw [f, maxwellf, maxwellf]
  have e2 : -(t * y * (t * y)) / (2 * (t * t)) = -(y * y) / (2 * (1 * 1)) := by field_simp
  rw [e2]; field_simp

theorem iterate {theta eps z : ℝ} (ht : 0 < theta) (he : 0 ≤ eps) (hz : 0 < z) : ∀ (n : Nat) (y : ℝ), Good z y →
    ∃ r, y / 3 ^ n ≤ r ∧ maxwellNewton (fin theta) (fin eps) (fin (F z)) n (fin (theta * y)) = fin (theta * r) ∧
      |F r - F z| ≤ max (|F y - F z| / 2 ^ n) (2 * eps)
  | 0, y, h => ⟨y, by simp, rfl, by simp⟩
  | n + 1, y, h => by
    have hy := h.pos hz
    have hf := f_pos hy
    obtain ⟨h1, h2⟩ := good_step hz h
    have hn := newton_eq (u := F z) hy
    have hthird := good_third hz h
    have es : fin (theta * y) - (maxwellCdf (fin theta) (fin (theta * y)) - fin (F z)) / maxwellPdf (fin theta) (fin (theta * y))
        = fin (theta * newton (F z) y) := by
      rw [maxwell_cdf ht, maxwell_pdf ht, maxwellF_scale ht, maxwellf_scale ht, fin_sub, fin_div (by positivity), fin_sub, newton]
      congr 1
      field_simp
    have eq : XR.abs (fin (theta * newton (F z) y) / fin (theta * y) - 1) = fin |newton (F z) y / y - 1| := by
      rw [fin_div (by positivity), ofNat_fin, fin_sub, abs_fin, mul_div_mul_left _ _ ht.ne']; simp
    rw [maxwellNewton]
    simp only [es, eq]
    by_cases c : |newton (F z) y / y - 1| < 4 * eps
    · rw [if_pos (by rw [ofNat_fin, fin_mul, fin_lt]; exact_mod_cast c)]
      refine ⟨_, ?_, rfl, le_max_of_le_right (h2.trans ?_)⟩
      · refine le_trans ?_ hthird
        rw [pow_succ]
        have : (1 : ℝ) ≤ 3 ^ n := one_le_pow₀ (by norm_num)
        exact div_le_div_of_nonneg_left hy.le (by norm_num) (by linarith)
      rw [← hn, abs_mul, abs_of_pos hf]
      have e : |y - newton (F z) y| = y * |newton (F z) y / y - 1| := by
        rw [← abs_of_pos hy, ← abs_mul, abs_of_pos hy, abs_sub_comm]
        congr 1; field_simp
      rw [e]
      have := yf_le hy.le
      have h3 := abs_nonneg (newton (F z) y / y - 1)
      nlinarith [mul_nonneg hy.le hf.le]
    · rw [if_neg (by rw [ofNat_fin, fin_mul, fin_lt]; exact_mod_cast c)]
      obtain ⟨r, r1, r2, r3⟩ := iterate ht he hz n _ h1
      refine ⟨r, le_trans ?_ r1, r2, r3.trans (max_le_max ?_ le_rfl)⟩
      · rw [pow_succ, ← div_div, div_right_comm]
        gcongr
      · rw [pow_succ, ← div_div, div_right_comm]
        gcongr

theorem icdf_bound {theta eps u : ℝ} (digits : Nat) (ht : 0 < theta) (he : 0 ≤ eps) (h0 : 0 < u) (h1 : u < 1) :
    ∃ y, theta * (y0 / 3 ^ (digits + 2)) ≤ y ∧ maxwellIcdf digits (fin eps) (fin theta) (fin u) = fin y ∧ |maxwellF theta y - u| ≤ max ((2 : ℝ)⁻¹ ^ (digits + 2)) (2 * eps) := by
  obtain ⟨z, hz, e⟩ := exists_maxwellF one_pos h0 h1
  have e' : u = F z := e.symm
  obtain ⟨r, r1, r2, r3⟩ := iterate ht he hz (digits + 2) y0 (good_start z)
  refine ⟨theta * r, mul_le_mul_of_nonneg_left r1 ht.le, ?_, ?_⟩
  · unfold maxwellIcdf
    rw [if_neg (by rw [ofNat_fin, ofNat_fin, fin_lt, fin_lt]; push Not; norm_num; constructor <;> linarith), if_neg (by rw [ofNat_fin, fin_eq]; norm_num; linarith),
      if_neg (by rw [ofNat_fin, fin_eq]; norm_num; linarith), sqrt2OverPi, ofNat_fin, fin_mul, fin_mul, e', ← r2]
    congr 2
    rw [y0]; push_cast; ring
  · rw [maxwellF_scale ht, e']
    refine r3.trans (max_le_max ?_ le_rfl)
    rw [inv_pow, ← one_div]
    have : |F y0 - F z| ≤ 1 := by
      have a := F_lt_one y0
      have b := F_pos (show 0 < y0 by linarith [y0_bounds.1])
      have c := F_lt_one z
      have d := F_pos hz
      rw [abs_le]; constructor <;> linarith
    gcongr

end Trng.Maxwell
