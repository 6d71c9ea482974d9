import Verif.Proofs.Acklam

/-! The accuracy of inv_Phi: rational approximation and Halley steps together. -/
namespace Trng.Acklam
open PolyBound Set Filter Topology

/-! ### Bounds of the normal distribution function -/

theorem phiR_neg (x : ℝ) : phiR (-x) = phiR x := by rw [phiR, phiR]; ring_nf
theorem hasDerivAt_phiR (x : ℝ) : HasDerivAt phiR (-x * phiR x) x := by
  have d2 : HasDerivAt (fun x : ℝ => -x * x / 2) (-x) x := by
    have := (((hasDerivAt_id' x).fun_neg).mul (hasDerivAt_id' x)).div_const 2
    refine this.congr_deriv ?_
    ring
  refine (d2.exp.const_mul (1 / Real.sqrt (2 * Real.pi))).congr_deriv ?_
  rw [phiR]; ring
theorem phiR_le_one (x : ℝ) : phiR x ≤ 1 := by
  obtain ⟨s1, _⟩ := sqrt2pi_bounds
  have h1 : Real.exp (-x * x / 2) ≤ 1 := Real.exp_le_one_iff.2 (by nlinarith [mul_self_nonneg x])
  have h2 : 1 / Real.sqrt (2 * Real.pi) ≤ 1 := by
    rw [div_le_one (by positivity)]; exact le_trans (by norm_num) s1.le
  calc phiR x ≤ 1 * 1 := mul_le_mul h2 h1 (Real.exp_pos _).le (by norm_num)
    _ = 1 := one_mul 1
theorem tendsto_PhiR_neg : Tendsto (fun t => PhiR (-t)) atTop (𝓝 0) := tendsto_PhiR_bot.comp tendsto_neg_atTop_atBot

theorem nonneg_of_antitone {f f' : ℝ → ℝ} {x : ℝ} (hf : ∀ t, x ≤ t → HasDerivAt f (f' t) t ∧ f' t ≤ 0) (hl : Tendsto f atTop (𝓝 0)) :
    0 ≤ f x := by
  have hanti : AntitoneOn f (Ici x) := by
    refine antitoneOn_of_deriv_nonpos (convex_Ici x) (fun t ht => (hf t ht).1.continuousAt.continuousWithinAt) (fun t ht => ?_) (fun t ht => ?_)
    · rw [interior_Ici] at ht
      exact (hf t (le_of_lt ht)).1.differentiableAt.differentiableWithinAt
    · rw [interior_Ici] at ht
      rw [(hf t (le_of_lt ht)).1.deriv]
      exact (hf t (le_of_lt ht)).2
  refine le_of_tendsto hl ?_
  filter_upwards [eventually_ge_atTop x] with t ht
  exact hanti (mem_Ici.2 le_rfl) (mem_Ici.2 ht) ht

/-- Mills' ratio, upper bound -/
theorem mills_le {x : ℝ} (hx : 0 < x) : x * PhiR (-x) ≤ phiR x := by
  have := nonneg_of_antitone (f := fun t => phiR t / t - PhiR (-t)) (f' := fun t => -(phiR t / t ^ 2)) (x := x) (fun t ht => by
    have ht0 : 0 < t := hx.trans_le ht
    have := phiR_pos t
    refine ⟨?_, by simp only [neg_nonpos]; positivity⟩
    have d1 := (hasDerivAt_phiR t).div (hasDerivAt_id' t) ht0.ne'
    have d2 := (hasDerivAt_PhiR (-t)).comp t (hasDerivAt_neg t)
    refine (d1.sub d2).congr_deriv ?_
    rw [phiR_neg]; field_simp; ring) (by
    have h1 : Tendsto (fun t => phiR t / t) atTop (𝓝 0) := by
      refine squeeze_zero' (g := fun t => 1 / t) ?_ ?_ (by simpa using tendsto_inv_atTop_zero)
      · filter_upwards [eventually_gt_atTop 0] with t ht
        exact div_nonneg (phiR_pos t).le ht.le
      · filter_upwards [eventually_gt_atTop 0] with t ht
        exact div_le_div_of_nonneg_right (phiR_le_one t) ht.le
    simpa using h1.sub tendsto_PhiR_neg)
  rw [sub_nonneg, le_div_iff₀ hx] at this
  linarith

/-- Mills' ratio, lower bound -/
theorem mills_ge {x : ℝ} (hx : 0 < x) : phiR x * x ≤ (1 + x ^ 2) * PhiR (-x) := by
  have := nonneg_of_antitone (f := fun t => PhiR (-t) - phiR t * t / (1 + t ^ 2)) (f' := fun t => -(2 * phiR t / (1 + t ^ 2) ^ 2)) (x := x) (fun t ht => by
    have ht0 : 0 < t := hx.trans_le ht
    have := phiR_pos t
    refine ⟨?_, by simp only [neg_nonpos]; positivity⟩
    have hne : (1 + t ^ 2) ≠ 0 := by positivity
    have d1 := ((hasDerivAt_phiR t).mul (hasDerivAt_id' t)).div ((hasDerivAt_pow 2 t).const_add 1) hne
    have d2 := (hasDerivAt_PhiR (-t)).comp t (hasDerivAt_neg t)
    refine (d2.sub d1).congr_deriv ?_
    simp only [Nat.cast_ofNat, pow_one, show (2 - 1 : ℕ) = 1 from rfl, Pi.mul_apply]
    rw [phiR_neg]; field_simp; ring) (by
    have h1 : Tendsto (fun t => phiR t * t / (1 + t ^ 2)) atTop (𝓝 0) := by
      refine squeeze_zero' (g := fun t => 1 / t) ?_ ?_ (by simpa using tendsto_inv_atTop_zero)
      · filter_upwards [eventually_gt_atTop 0] with t ht
        have := phiR_pos t
        positivity
      · filter_upwards [eventually_gt_atTop 0] with t ht
        rw [div_le_div_iff₀ (by positivity) ht]
        have := phiR_le_one t
        nlinarith [mul_pos ht ht]
    simpa using tendsto_PhiR_neg.sub h1)
  rw [sub_nonneg, div_le_iff₀ (by positivity)] at this
  linarith

theorem PhiR_neg_le_exp {x : ℝ} (hx : 1 ≤ x) : PhiR (-x) ≤ Real.exp (-x ^ 2 / 2) := by
  have h := mills_le (lt_of_lt_of_le one_pos hx)
  have hP := PhiR_pos (-x)
  obtain ⟨s1, _⟩ := sqrt2pi_bounds
  have h2 : phiR x ≤ Real.exp (-x ^ 2 / 2) := by
    rw [phiR, show -x * x / 2 = -x ^ 2 / 2 by ring]
    refine mul_le_of_le_one_left (Real.exp_pos _).le ?_
    rw [div_le_one (by positivity)]; exact le_trans (by norm_num) s1.le
  nlinarith

/-- A small relative difference of the values means a small difference of the arguments. -/
theorem diff_le {x y d : ℝ} (hx : 0 < x) (hxy : x ≤ y) (h : PhiR (-x) ≤ (1 + d) * PhiR (-y)) : x * (y - x) ≤ d := by
  have key : Real.exp (x * y) * PhiR (-y) ≤ Real.exp (x * x) * PhiR (-x) := by
    have hanti : AntitoneOn (fun t => Real.exp (x * t) * PhiR (-t)) (Icc x y) := by
      have hd : ∀ t, HasDerivAt (fun t => Real.exp (x * t) * PhiR (-t)) (Real.exp (x * t) * (x * PhiR (-t) - phiR t)) t := by
        intro t
        have d1 := ((hasDerivAt_id' t).const_mul x).exp
        have d2 := (hasDerivAt_PhiR (-t)).comp t (hasDerivAt_neg t)
        refine (d1.mul d2).congr_deriv ?_
        simp only [Function.comp_apply]
        rw [phiR_neg]; ring
      refine antitoneOn_of_deriv_nonpos (convex_Icc x y) (fun t _ => (hd t).continuousAt.continuousWithinAt)
        (fun t _ => (hd t).differentiableAt.differentiableWithinAt) (fun t ht => ?_)
      rw [interior_Icc] at ht
      rw [(hd t).deriv]
      have ht0 : 0 < t := hx.trans ht.1
      have h1 := mills_le ht0
      have h2 := PhiR_pos (-t)
      have : x * PhiR (-t) - phiR t ≤ 0 := by nlinarith [ht.1]
      exact mul_nonpos_of_nonneg_of_nonpos (Real.exp_pos _).le this
    exact hanti ⟨le_rfl, hxy⟩ ⟨hxy, le_rfl⟩ hxy
  have h2 := PhiR_pos (-y)
  have h3 : Real.exp (x * (y - x)) * PhiR (-y) ≤ PhiR (-x) := by
    rw [show x * (y - x) = x * y - x * x by ring, Real.exp_sub, div_mul_eq_mul_div, div_le_iff₀ (Real.exp_pos _)]
    linarith
  have h4 : Real.exp (x * (y - x)) ≤ 1 + d := le_of_mul_le_mul_right (h3.trans h) h2
  have := Real.add_one_le_exp (x * (y - x))
  linarith

/-! ### The error in the outer regions -/

theorem exp_ratio {q : ℝ} (h0 : 2.727 ≤ q) (h1 : q ≤ 38.6) {X : ℝ} (hX : 39.4 ≤ X) : Real.exp (-X ^ 2 / 2) ≤ 1e-8 * Real.exp (-q ^ 2 / 2) := by
  have hq : q ^ 2 ≤ 38.6 ^ 2 := pow_le_pow_left₀ (le_trans (by norm_num) h0) h1 2
  have hX2 : 39.4 ^ 2 ≤ X ^ 2 := pow_le_pow_left₀ (by norm_num) hX 2
  have e : -X ^ 2 / 2 ≤ -30 + -q ^ 2 / 2 := by norm_num at hq hX2 ⊢; linarith
  calc Real.exp (-X ^ 2 / 2) ≤ Real.exp (-30 + -q ^ 2 / 2) := Real.exp_le_exp.2 e
    _ = Real.exp (-30) * Real.exp (-q ^ 2 / 2) := Real.exp_add _ _
    _ ≤ _ := by
      refine mul_le_mul_of_nonneg_right ?_ (Real.exp_pos _).le
      rw [Real.exp_neg, inv_le_comm₀ (Real.exp_pos _) (by norm_num)]
      have h2 : (2 : ℝ) ≤ Real.exp 1 := by have := Real.add_one_le_exp 1; linarith
      have : (2 : ℝ) ^ 30 ≤ Real.exp 1 ^ 30 := pow_le_pow_left₀ (by norm_num) h2 30
      rw [← Real.exp_nat_mul] at this
      norm_num at this ⊢
      linarith

/-- The relative error in the outer regions. -/
theorem tail {q : ℝ} (h0 : 2.727 ≤ q) (h1 : q ≤ 38.6) :
    |PhiR (-AT q) - Real.exp (-q ^ 2 / 2)| ≤ 7.2e-6 * Real.exp (-q ^ 2 / 2) := by
  have hQ : q ≤ 39.6 := h1.trans (by norm_num)
  have herr : ∀ t : ℝ, 2.727 ≤ t → t ≤ 39.6 → |Real.exp (HT t) - 1| ≤ 7.1e-6 := fun t a b =>
    (abs_exp_sub_one (HT_bound a b) (by norm_num)).trans (by norm_num)
  have hup : MonotoneOn (fun q => PhiR (-AT q) - (1 + 7.1e-6) * Real.exp (-q ^ 2 / 2)) (Icc q 39.6) := by
    refine monotoneOn_of_deriv_nonneg (convex_Icc _ _)
      (fun t ht => (hasDerivAt_PhiAT _ (h0.trans ht.1) ht.2).continuousAt.continuousWithinAt) (fun t ht => ?_) (fun t ht => ?_)
    · rw [interior_Icc] at ht
      exact (hasDerivAt_PhiAT _ (h0.trans ht.1.le) ht.2.le).differentiableAt.differentiableWithinAt
    · rw [interior_Icc] at ht
      rw [(hasDerivAt_PhiAT _ (h0.trans ht.1.le) ht.2.le).deriv]
      have := (abs_le.1 (herr t (h0.trans ht.1.le) ht.2.le)).2
      have ht0 : 0 ≤ t := le_trans (by norm_num) (h0.trans ht.1.le)
      exact mul_nonneg (by linarith) (mul_nonneg ht0 (Real.exp_pos _).le)
  have hdn : AntitoneOn (fun q => PhiR (-AT q) - (1 - 7.1e-6) * Real.exp (-q ^ 2 / 2)) (Icc q 39.6) := by
    refine antitoneOn_of_deriv_nonpos (convex_Icc _ _)
      (fun t ht => (hasDerivAt_PhiAT _ (h0.trans ht.1) ht.2).continuousAt.continuousWithinAt) (fun t ht => ?_) (fun t ht => ?_)
    · rw [interior_Icc] at ht
      exact (hasDerivAt_PhiAT _ (h0.trans ht.1.le) ht.2.le).differentiableAt.differentiableWithinAt
    · rw [interior_Icc] at ht
      rw [(hasDerivAt_PhiAT _ (h0.trans ht.1.le) ht.2.le).deriv]
      have := (abs_le.1 (herr t (h0.trans ht.1.le) ht.2.le)).1
      have ht0 : 0 ≤ t := le_trans (by norm_num) (h0.trans ht.1.le)
      exact mul_nonpos_of_nonpos_of_nonneg (by linarith) (mul_nonneg ht0 (Real.exp_pos _).le)
  have u1 := hup ⟨le_rfl, hQ⟩ ⟨hQ, le_rfl⟩ hQ
  have u2 := hdn ⟨le_rfl, hQ⟩ ⟨hQ, le_rfl⟩ hQ
  simp only at u1 u2
  have r1 := exp_ratio h0 h1 (X := 39.6) (by norm_num)
  have r2 := exp_ratio h0 h1 AT_end
  have r3 := PhiR_neg_le_exp (x := AT 39.6) (le_trans (by norm_num) AT_end)
  have p1 := Real.exp_pos (-(39.6 : ℝ) ^ 2 / 2)
  have p2 := Real.exp_pos (-q ^ 2 / 2)
  have p3 := PhiR_pos (-AT 39.6)
  generalize Real.exp (-(39.6 : ℝ) ^ 2 / 2) = P at *
  generalize Real.exp (-q ^ 2 / 2) = p at *
  rw [abs_le]
  norm_num at u1 u2 r1 r2 ⊢
  constructor <;> linarith

/-! ### One Halley step -/

/-- A guess with `ζ |y - z| ≤ d` in the outer regions, `ζ = |z|`. -/
theorem halley_tail {y z ζ d : ℝ} (hz : |z| = ζ) (hζ : 1.9 ≤ ζ) (hd : ζ * |y - z| ≤ d) (hd1 : d ≤ 1e-5) :
    ∃ y', halleyPhi (XR.fin (PhiR z)) (XR.fin y) = XR.fin y' ∧ ζ * |y' - z| ≤ 1.2 * d ^ 3 := by
  have hζ0 : 0 < ζ := lt_of_lt_of_le (by norm_num) hζ
  have hη : |y - z| ≤ d / ζ := by rw [le_div_iff₀ hζ0]; linarith
  have hd0 : 0 ≤ d := le_trans (by positivity) hd
  have hη2 : |y - z| ≤ 1e-5 * ζ := by
    refine hη.trans ?_
    rw [div_le_iff₀ hζ0]
    norm_num at hd1 hζ ⊢
    nlinarith
  have hy : |y| ≤ ζ * (1 + 1e-5) := by
    calc |y| = |(y - z) + z| := by ring_nf
      _ ≤ |y - z| + |z| := abs_add_le _ _
      _ ≤ _ := by rw [hz]; linarith
  obtain ⟨y', e, h⟩ := halleyPhi_bound (z := z) (y := y) (M := ζ * (1 + 1e-5)) (by rw [hz]; norm_num; linarith) hy (by
    norm_num at hd hd1 ⊢
    linarith)
  refine ⟨y', e, ?_⟩
  have h3 : |y - z| ^ 3 ≤ (d / ζ) ^ 3 := pow_le_pow_left₀ (abs_nonneg _) hη 3
  have h4 : |y' - z| ≤ (3 / 2 + 3 / 4 * (ζ * (1 + 1e-5)) ^ 2) * (d / ζ) ^ 3 := h.trans (mul_le_mul_of_nonneg_left h3 (by positivity))
  have h5 : ζ * |y' - z| ≤ (3 / 2 + 3 / 4 * (ζ * (1 + 1e-5)) ^ 2) / ζ ^ 2 * d ^ 3 := by
    calc ζ * |y' - z| ≤ ζ * ((3 / 2 + 3 / 4 * (ζ * (1 + 1e-5)) ^ 2) * (d / ζ) ^ 3) := mul_le_mul_of_nonneg_left h4 hζ0.le
      _ = _ := by field_simp
  refine h5.trans (mul_le_mul_of_nonneg_right ?_ (by positivity))
  rw [div_le_iff₀ (by positivity)]
  have : 1.9 ^ 2 ≤ ζ ^ 2 := pow_le_pow_left₀ (by norm_num) hζ 2
  norm_num at this ⊢
  nlinarith

theorem phiR_le_of_abs {x y : ℝ} (h : |y| ≤ |x|) : phiR x ≤ phiR y := by
  rw [phiR, phiR]
  refine mul_le_mul_of_nonneg_left (Real.exp_le_exp.2 ?_) (by positivity)
  have := sq_le_sq.2 h
  nlinarith

/-- From the argument to the value: relative to the probability outside. -/
theorem value_tail {y z ζ e : ℝ} (hz : |z| = ζ) (hζ : 1.9 ≤ ζ) (he : ζ * |y - z| ≤ e) (he1 : e ≤ 1e-3) :
    |PhiR y - PhiR z| ≤ 1.3 * e * PhiR (-ζ) := by
  have hζ0 : 0 < ζ := lt_of_lt_of_le (by norm_num) hζ
  have he0 : 0 ≤ e := le_trans (by positivity) he
  have hη : |y - z| ≤ e / ζ := by rw [le_div_iff₀ hζ0]; linarith
  have hηζ : e / ζ ≤ ζ := by rw [div_le_iff₀ hζ0]; norm_num at he1 hζ; nlinarith
  have bound : ∀ x ∈ uIcc z y, ‖phiR x‖ ≤ 1.01 * phiR ζ := by
    intro x hx
    rw [Real.norm_of_nonneg (phiR_pos x).le]
    have hx1 : |x - z| ≤ e / ζ := (abs_sub_left_of_mem_uIcc hx).trans hη
    have hx2 : ζ - e / ζ ≤ |x| := by
      have := abs_sub_abs_le_abs_sub z x
      rw [hz, abs_sub_comm] at this
      linarith
    have h1 : phiR x ≤ phiR (ζ - e / ζ) := phiR_le_of_abs (by rw [abs_of_nonneg (by linarith)]; exact hx2)
    refine h1.trans ?_
    rw [phiR, phiR, ← mul_assoc, mul_comm (1.01 : ℝ), mul_assoc]
    refine mul_le_mul_of_nonneg_left ?_ (by positivity)
    have e1 : -(ζ - e / ζ) * (ζ - e / ζ) / 2 ≤ -ζ * ζ / 2 + e := by
      have : e / ζ * ζ = e := div_mul_cancel₀ _ hζ0.ne'
      nlinarith [sq_nonneg (e / ζ)]
    refine (Real.exp_le_exp.2 e1).trans ?_
    rw [Real.exp_add, mul_comm]
    refine mul_le_mul_of_nonneg_right ?_ (Real.exp_pos _).le
    have := (abs_le.1 (abs_exp_sub_one (t := e) (e := e) (by rw [abs_of_nonneg he0]) (by norm_num at he1 ⊢; linarith))).2
    norm_num at this he1 ⊢
    linarith
  have := Convex.norm_image_sub_le_of_norm_hasDerivWithin_le (f := PhiR) (f' := phiR) (s := uIcc z y) (x := z) (y := y)
    (fun x _ => (hasDerivAt_PhiR x).hasDerivWithinAt) bound (convex_uIcc z y) left_mem_uIcc right_mem_uIcc
  rw [Real.norm_eq_abs, Real.norm_eq_abs] at this
  have hm := mills_ge hζ0
  have hP := PhiR_pos (-ζ)
  have hph : phiR ζ ≤ (1 + ζ ^ 2) / ζ * PhiR (-ζ) := by rw [div_mul_eq_mul_div, le_div_iff₀ hζ0]; linarith
  calc |PhiR y - PhiR z| ≤ 1.01 * phiR ζ * |y - z| := this
    _ ≤ 1.01 * ((1 + ζ ^ 2) / ζ * PhiR (-ζ)) * (e / ζ) := by gcongr
    _ = 1.01 * ((1 + ζ ^ 2) / ζ ^ 2) * e * PhiR (-ζ) := by field_simp
    _ ≤ 1.3 * e * PhiR (-ζ) := by
      refine mul_le_mul_of_nonneg_right (mul_le_mul_of_nonneg_right ?_ he0) hP.le
      have h2 : 1.9 ^ 2 ≤ ζ ^ 2 := pow_le_pow_left₀ (by norm_num) hζ 2
      rw [← mul_div_assoc, div_le_iff₀ (by positivity)]
      norm_num at h2 ⊢
      linarith

end Trng.Acklam
