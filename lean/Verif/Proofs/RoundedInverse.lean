import Verif.Proofs.RoundedCentre
import Verif.Proofs.RoundedStep
import Verif.Proofs.RoundedDiscrete

/-! The inverse normal distribution function in the arithmetic of `double`. -/
namespace Trng.Inverse
open XR Machine Spec Rounded Acklam
open Classical

variable {M : Machine} {d : ℝ}

local notation "Φd" => Rounded.Phi M oneOverSqrt2Double quartileDouble
local notation "stepd" => Rounded.halleyPhi M oneOverSqrt2Double quartileDouble sqrt2piDouble

/-- A Halley step, given the error of the difference of the probabilities. -/
theorem step (D : DoubleWithin M d) (hd : d ≤ 9e-16) {x y z K X ρ v : ℝ} (hK : 1 ≤ K) (hK' : K ≤ 40) (hz : |z| ≤ K)
    (hyz : K * |y - z| ≤ 8e-6) (hy : |y| ≤ 37.65) (ev : M.sub (Φd (fin y)) (fin x) = fin v) (hX : tiny ≤ 2.3e-16 * X)
    (hρ : 0 ≤ ρ) (hρ1 : ρ ≤ 8e-4) (hv : |v - (PhiR y - PhiR z)| ≤ ρ * X) (he : |PhiR y - PhiR z| ≤ 1e-4 * X)
    (hW : K * (Real.sqrt (2 * Real.pi) * Real.exp (y * y / 2) * X) ≤ 1.1) :
    ∃ y' : ℝ, stepd (fin x) (fin y) = fin y' ∧ K * |y' - z| ≤ 1.22 * ρ + 2e-15 + 1.3e-16 * K ^ 2 := by
  obtain ⟨E, eE, hE⟩ := exp_step D hd hy
  obtain ⟨w, ew, hw⟩ := weight D (Real.one_le_exp (by linarith [mul_self_nonneg y])) hE hK hX hρ (by linarith) hv he hW
  obtain ⟨y', ey, hy'⟩ := finish D hK hK' hz hyz rfl (by linarith) hw
  refine ⟨y', ?_, by linarith⟩
  unfold Rounded.halleyPhi
  simp only
  rw [ev, eE, ew, ey]

/-- The weight in the tails. -/
theorem tail_weight {y z ζ : ℝ} (hz : |z| = ζ) (hζ : 1.9 ≤ ζ) (h : ζ * |y - z| ≤ 7.4e-6) :
    ζ * (Real.sqrt (2 * Real.pi) * Real.exp (y * y / 2) * PhiR (-ζ)) ≤ 1.1 := by
  have hm := mills_le (x := ζ) (by linarith)
  have hs : 0 < Real.sqrt (2 * Real.pi) := by positivity
  have hζ0 : 0 < ζ := by linarith
  have hyz : |y - z| ≤ 7.4e-6 := by nlinarith [abs_nonneg (y - z)]
  have hyy : y * y - ζ * ζ ≤ 2e-5 := by
    have e : y * y - ζ * ζ = (y - z) * (y - z) + 2 * (z * (y - z)) := by
      rw [← hz, abs_mul_abs_self]; ring
    have h1 : z * (y - z) ≤ ζ * |y - z| := by rw [← hz, ← abs_mul]; exact le_abs_self _
    have h2 : (y - z) * (y - z) ≤ 7.4e-6 * 7.4e-6 := by
      rw [← abs_mul_abs_self]; exact mul_le_mul hyz hyz (abs_nonneg _) (by norm_num)
    rw [e]; linarith
  have h1 : Real.exp (y * y / 2 - ζ * ζ / 2) ≤ 1.1 := by
    have := (abs_le.1 (abs_exp_sub_one (t := 1e-2) (e := 1e-2) (by norm_num [abs_le]) (by norm_num))).2
    calc Real.exp (y * y / 2 - ζ * ζ / 2) ≤ Real.exp 1e-2 := Real.exp_le_exp.2 (by linarith)
      _ ≤ 1.1 := by linarith
  calc ζ * (Real.sqrt (2 * Real.pi) * Real.exp (y * y / 2) * PhiR (-ζ)) = Real.sqrt (2 * Real.pi) * Real.exp (y * y / 2) * (ζ * PhiR (-ζ)) := by ring
    _ ≤ Real.sqrt (2 * Real.pi) * Real.exp (y * y / 2) * phiR ζ := mul_le_mul_of_nonneg_left hm (by positivity)
    _ = Real.exp (y * y / 2 - ζ * ζ / 2) := by
      rw [phiR, show y * y / 2 - ζ * ζ / 2 = y * y / 2 + -ζ * ζ / 2 by ring, Real.exp_add]; field_simp
    _ ≤ 1.1 := h1

/-- A bound of the quantile. -/
theorem quantile_le {t ζ : ℝ} {n : ℕ} {b : ℝ} (h1 : 1.9 ≤ ζ) (hζ : PhiR (-ζ) = t) (ht : (2 : ℝ)⁻¹ ^ n ≤ t) (hb : 0 ≤ b) (hn : 2 * n * 0.693147181 ≤ b ^ 2) :
    ζ ≤ b := by
  have h2 := PhiR_neg_le_exp (x := ζ) (by linarith)
  rw [hζ] at h2
  have h3 : Real.log ((2 : ℝ)⁻¹ ^ n) ≤ -ζ ^ 2 / 2 := by
    rw [Real.log_le_iff_le_exp (by positivity)]; exact ht.trans h2
  rw [Real.log_pow, Real.log_inv] at h3
  have h4 := Real.log_two_lt_d9
  have h5 : (n : ℝ) * Real.log 2 ≤ n * 0.693147181 := mul_le_mul_of_nonneg_left (by linarith) (Nat.cast_nonneg n)
  exact le_of_sq_le_sq (by linarith) hb
where
  le_of_sq_le_sq {a b : ℝ} (h : a ^ 2 ≤ b ^ 2) (hb : 0 ≤ b) : a ≤ b := le_of_abs_le (by simpa [abs_of_nonneg hb] using sq_le_sq.1 h)

theorem near_le {y z ζ : ℝ} (hz : |z| = ζ) (h1 : 1 ≤ ζ) (h2 : ζ ≤ 37.9) (h : ζ * |y - z| ≤ 1e-2) : |y| ≤ 38 := by
  have := abs_add_le (y - z) z
  rw [sub_add_cancel] at this
  nlinarith [abs_nonneg (y - z)]

theorem lower (D : DoubleWithin M d) (hd : d ≤ 9e-16) {x ζ y : ℝ} (h0 : (2 : ℝ)⁻¹ ^ 1022 ≤ x) (hζ : PhiR (-ζ) = x)
    (h19 : 1.92 ≤ ζ) (hy : ζ * |y + ζ| ≤ 7.4e-6) : ∃ y' : ℝ, stepd (fin x) (fin y) = fin y' ∧ |y'| ≤ 38 ∧ |PhiR y' - x| ≤ 1.4e-12 * x := by
  have hx : 0 < x := lt_of_lt_of_le (by positivity) h0
  have hx1 : x ≤ 1 := by rw [← hζ]; exact (PhiR_lt_one _).le
  have hζ' := quantile_le (b := 37.645) (by linarith) hζ h0 (by norm_num) (by norm_num)
  have htx : tiny ≤ 2.3e-16 * x := by
    have : tiny ≤ 2.3e-16 * (2 : ℝ)⁻¹ ^ 1022 := by
      rw [tiny, inv_pow, ← zpow_natCast, ← zpow_neg, show (-1074 : ℤ) = -52 + -((1022 : ℕ) : ℤ) by norm_num, zpow_add₀ two_ne_zero]
      exact mul_le_mul_of_nonneg_right (by norm_num) (two_zpow_pos _).le
    exact this.trans (mul_le_mul_of_nonneg_left h0 (by norm_num))
  clear h0
  have ht0 := tiny_pos
  have hz : |(-ζ : ℝ)| = ζ := by rw [abs_neg, abs_of_nonneg (by linarith)]
  have hyz : ζ * |y - -ζ| ≤ 7.4e-6 := by rw [sub_neg_eq_add]; exact hy
  have hyζ : |y + ζ| ≤ 4e-6 := by nlinarith [abs_nonneg (y + ζ)]
  obtain ⟨y1, y2⟩ := abs_le.1 hyζ
  have hval := value_tail hz (by linarith) hyz (by norm_num)
  have hW := tail_weight hz (by linarith) hyz
  obtain ⟨p, ep, hp⟩ := Phi_lower D hd (y := y) (by linarith) (by linarith)
  obtain ⟨y', ey, hy'⟩ : ∃ y' : ℝ, stepd (fin x) (fin y) = fin y' ∧ ζ * |y' - -ζ| ≤ 1.22 * 7.1e-13 + 2e-15 + 1.3e-16 * ζ ^ 2 := by
    rw [hζ] at hW hval
    have hPy : PhiR y ≤ 1.0001 * x := by linarith [(abs_le.1 hval).2]
    have hpx : |p - x| ≤ 2e-5 * x := by
      have := abs_add_le (p - PhiR y) (PhiR y - x)
      rw [sub_add_sub_cancel] at this; linarith
    obtain ⟨v, ev, hv⟩ := sub_err D (a := p) (b := x) ((hpx.trans (by linarith : _ ≤ (1 : ℝ))).trans (by norm_num))
    refine step D hd (X := x) (by linarith) (by linarith) hz.le (by linarith) (abs_le.2 ⟨by linarith, by linarith⟩) (by rw [ep, ev]) htx (by norm_num)
      (by norm_num) ?_ (by rw [hζ]; linarith) hW
    rw [hζ]
    have t := abs_add_le (v - (p - x)) (p - PhiR y)
    rw [show v - (p - x) + (p - PhiR y) = v - (PhiR y - x) by ring] at t
    linarith
  have hsq : ζ ^ 2 ≤ 1417.2 := by nlinarith
  refine ⟨y', ey, near_le hz (by linarith) (by linarith) (show ζ * |y' - -ζ| ≤ 1e-2 by linarith), ?_⟩
  have := value_tail (y := y') (e := 1.06e-12) hz (by linarith) (by linarith) (by norm_num)
  rw [hζ] at this
  linarith

/-! ### Numbers next to 1 -/

theorem rep_half (D : DoubleWithin M d) {x : ℝ} (h0 : 1 / 2 ≤ x) (h1 : x < 1) (hx : M.Rep x) : ∃ n : ℤ, x = n * 2 ^ (-53 : ℤ) := by
  unfold Machine.Rep at hx
  rw [D.rnd, ieee_nonneg (by linarith)] at hx
  split_ifs at hx
  rw [fin_inj] at hx
  have a : Int.log 2 x < 0 := (zpow_lt_zpow_iff_right₀ (one_lt_two (α := ℝ))).1 ((log_le (by linarith)).trans_lt (by simpa using h1))
  have b : -1 < Int.log 2 x + 1 := (zpow_lt_zpow_iff_right₀ (one_lt_two (α := ℝ))).1 (lt_of_le_of_lt (by norm_num; linarith) lt_log)
  have hu : ulpExp 53 (-1074) x = -53 := by unfold ulpExp; omega
  exact ⟨_, by rw [← hu]; exact hx.symm⟩

theorem rnd_half (D : DoubleWithin M d) {x w : ℝ} {n : ℤ} (h0 : 1 / 2 ≤ w) (h1 : w < 1) (hx : x = n * 2 ^ (-53 : ℤ)) (hx1 : x < 1)
    (h : |w - x| < 2 ^ (-54 : ℤ)) : M.rnd w = fin x := by
  have a : Int.log 2 w < 0 := (zpow_lt_zpow_iff_right₀ (one_lt_two (α := ℝ))).1 ((log_le (by linarith)).trans_lt (by simpa using h1))
  have b : -1 < Int.log 2 w + 1 := (zpow_lt_zpow_iff_right₀ (one_lt_two (α := ℝ))).1 (lt_of_le_of_lt (by norm_num; linarith) lt_log)
  have hu : ulpExp 53 (-1074) w = -53 := by unfold ulpExp; omega
  have hn : nearestEven (w / 2 ^ (-53 : ℤ)) = n := by
    have c := nearestEven_close (w / 2 ^ (-53 : ℤ))
    have e : |w / 2 ^ (-53 : ℤ) - n| < 1 / 2 := by
      rw [show w / 2 ^ (-53 : ℤ) - n = (w - x) / 2 ^ (-53 : ℤ) by rw [hx]; field_simp, abs_div, abs_of_pos (two_zpow_pos _),
        div_lt_iff₀ (two_zpow_pos _)]
      refine h.trans_le (by norm_num)
    have f : |(nearestEven (w / 2 ^ (-53 : ℤ)) : ℝ) - n| < 1 := by
      have := abs_add_le ((nearestEven (w / 2 ^ (-53 : ℤ)) : ℝ) - w / 2 ^ (-53 : ℤ)) (w / 2 ^ (-53 : ℤ) - n)
      rw [sub_add_sub_cancel] at this
      linarith
    have g : |nearestEven (w / 2 ^ (-53 : ℤ)) - n| < 1 := by exact_mod_cast f
    have := Int.abs_lt_one_iff.1 g
    omega
  have hv : nearestPos 53 (-1074) w = x := by unfold nearestPos; rw [hu, hn, hx]
  rw [D.rnd, ieee_nonneg (by linarith), hv, if_neg]
  rw [not_le]
  exact hx1.trans_le (one_le_zpow₀ one_le_two (by norm_num))

theorem one_sub_ge {x : ℝ} {n : ℤ} (hx : x = n * 2 ^ (-53 : ℤ)) (h1 : x < 1) : (2 : ℝ)⁻¹ ^ 53 ≤ 1 - x := by
  have h2 : (2 : ℝ) ^ (-53 : ℤ) = 1 / 2 ^ 53 := by norm_num
  rw [h2] at hx
  have h3 : (n : ℝ) < 2 ^ 53 := by rw [hx] at h1; linarith
  have h4 : n < 2 ^ 53 := by exact_mod_cast h3
  have h5 : (n : ℝ) ≤ 2 ^ 53 - 1 := by
    have : n ≤ 2 ^ 53 - 1 := by omega
    exact_mod_cast this
  rw [hx, inv_pow]
  linarith

set_option maxHeartbeats 800000 in
theorem upper (D : DoubleWithin M d) (hd : d ≤ 9e-16) {x t ζ y : ℝ} (hR : M.Rep x) (hx1 : x < 1) (hxt : x = 1 - t) (h1 : t ≤ 0.02425)
    (hζ : PhiR (-ζ) = t) (h19 : 1.92 ≤ ζ) (hy : ζ * |y - ζ| ≤ 7.4e-6) :
    ∃ y' : ℝ, stepd (fin x) (fin y) = fin y' ∧ |y'| ≤ 38 ∧ |PhiR y' - x| ≤ 2e-16 + 1.4e-12 * t := by
  obtain ⟨n, hn⟩ := rep_half D (by linarith) hx1 hR
  have h53 := one_sub_ge hn hx1
  rw [hxt, sub_sub_cancel] at h53
  have ht0 : 0 < t := by linarith
  have hζ' := quantile_le (b := 8.58) (by linarith) hζ h53 (by norm_num) (by norm_num)
  have htt : tiny ≤ 1e-30 * t := by
    have h17 : (2 : ℝ)⁻¹ ^ 53 ≥ 1e-17 := by norm_num
    have h200 : tiny ≤ 2 ^ (-200 : ℤ) := zpow_le_zpow_right₀ one_le_two (by norm_num)
    have h50 : (2 : ℝ) ^ (-200 : ℤ) ≤ 1e-50 := by norm_num
    have := h200.trans h50
    linarith
  have htp := tiny_pos
  have hPζ : PhiR ζ = x := by have := PhiR_neg ζ; rw [hζ] at this; linarith
  have hz : |ζ| = ζ := abs_of_nonneg (by linarith)
  have hyζ : |y - ζ| ≤ 4e-6 := by nlinarith [abs_nonneg (y - ζ)]
  obtain ⟨y1, y2⟩ := abs_le.1 hyζ
  have hval := value_tail hz (by linarith) hy (by norm_num)
  have hW := tail_weight hz (by linarith) hy
  obtain ⟨s, es, hs⟩ := Phi_upper D hd (y := y) (by linarith) (by linarith)
  have hsq : ζ ^ 2 ≤ 74 := by nlinarith
  rw [hζ] at hW hval
  have hPy := PhiR_neg y
  rw [hPζ] at hval
  have hval' : |PhiR (-y) - t| ≤ 1.3 * 7.4e-6 * t := by rw [hPy, show 1 - PhiR y - t = -(PhiR y - x) by rw [hxt]; ring, abs_neg]; exact hval
  obtain ⟨a1, a2⟩ := abs_le.1 hval'
  have hs' : |s - PhiR (-y)| ≤ 7.1e-13 * t := by linarith
  have hst : |s - t| ≤ 9.63e-6 * t := by
    have := abs_add_le (s - PhiR (-y)) (PhiR (-y) - t)
    rw [sub_add_sub_cancel] at this; linarith
  obtain ⟨s1, s2⟩ := abs_le.1 hst
  have hy37 : |y| ≤ 37.65 := abs_le.2 ⟨by linarith, by linarith⟩
  rcases le_or_gt 4e-12 t with c | c
  · have h1s : |1 - s| ≤ 1 := abs_le.2 ⟨by linarith, by linarith⟩
    obtain ⟨p, ep, hp⟩ := rnd_err D (x := 1 - s) (big_le h1s (by norm_num))
    have hp' : |p - (1 - s)| ≤ 1.21e-16 := hp.trans (by linarith [tiny_le])
    have hpx : |p - x| ≤ 1e-4 * t := by
      have := abs_add_le (p - (1 - s)) (-(s - t))
      rw [show p - (1 - s) + -(s - t) = p - x by rw [hxt]; ring, abs_neg] at this
      linarith
    obtain ⟨v, ev, hv⟩ := sub_err D (a := p) (b := x) ((hpx.trans (by linarith : _ ≤ (1 : ℝ))).trans (by norm_num))
    set ρ := 1.22e-16 / t + 7.2e-13 with hρ
    have hρt : ρ * t = 1.22e-16 + 7.2e-13 * t := by rw [hρ]; field_simp
    have hρ0 : 0 ≤ ρ := by positivity
    have hρ1 : ρ ≤ 8e-4 := by
      have : 1.22e-16 / t ≤ 1e-4 := by rw [div_le_iff₀ ht0]; linarith
      linarith
    obtain ⟨y', ey, hy'⟩ := step D hd (X := t) (ρ := ρ) (v := v) (by linarith) (by linarith) hz.le (by linarith) hy37 (by rw [es, ep, ev])
      (by linarith) hρ0 hρ1 (by
        rw [hPζ, hρt]
        have q := abs_add_le (v - (p - x)) (p - (1 - s))
        have q2 := abs_add_le (v - (p - x) + (p - (1 - s))) (-(s - PhiR (-y)))
        rw [show v - (p - x) + (p - (1 - s)) + -(s - PhiR (-y)) = v - (PhiR y - x) by rw [hPy]; ring, abs_neg] at q2
        linarith) (by rw [hPζ]; linarith) hW
    refine ⟨y', ey, near_le hz (by linarith) (by linarith) (show ζ * |y' - ζ| ≤ 1e-2 by linarith), ?_⟩
    have := value_tail (y := y') (e := 1.22 * ρ + 1.2e-14) hz (by linarith) (by linarith) (by linarith)
    rw [hPζ, hζ] at this
    have e : 1.3 * (1.22 * ρ + 1.2e-14) * t = 1.586 * (ρ * t) + 1.56e-14 * t := by ring
    rw [e, hρt] at this
    linarith
  · have hrnd : M.rnd (1 - s) = fin x := rnd_half D (n := n) (by linarith) (by linarith) hn hx1 (by
      rw [hxt, show 1 - s - (1 - t) = -(s - t) by ring, abs_neg]
      refine hst.trans_lt ?_
      have : (2 : ℝ) ^ (-54 : ℤ) ≥ 5e-17 := by norm_num
      generalize (2 : ℝ) ^ (-54 : ℤ) = B at *
      linarith)
    have ev : M.sub (fin x) (fin x) = fin 0 := by
      rw [Machine.sub_fin, sub_self, D.rnd, ieee_zero]
    obtain ⟨y', ey, hy'⟩ := step D hd (X := t) (ρ := 1e-5) (v := 0) (by linarith) (by linarith) hz.le (by linarith) hy37 (by rw [es, hrnd, ev])
      (by linarith) (by norm_num) (by norm_num) (by rw [hPζ, zero_sub, abs_neg]; linarith) (by rw [hPζ]; linarith) hW
    refine ⟨y', ey, near_le hz (by linarith) (by linarith) (show ζ * |y' - ζ| ≤ 1e-2 by linarith), ?_⟩
    have := value_tail (y := y') (e := 1.3e-5) hz (by linarith) (by linarith) (by norm_num)
    rw [hPζ, hζ] at this
    linarith

theorem central (D : DoubleWithin M d) (hd : d ≤ 9e-16) {x z y : ℝ} (hz : PhiR z = x) (h2 : |z| ≤ 2) (hy : |y - z| ≤ 1.3e-6) :
    ∃ y' : ℝ, stepd (fin x) (fin y) = fin y' ∧ |y'| ≤ 38 ∧ |PhiR y' - x| ≤ 6e-14 := by
  have ht := tiny_le
  have hyb : |y| ≤ 2.00001 := by
    have := abs_add_le (y - z) z
    rw [sub_add_cancel] at this; linarith
  obtain ⟨p, ep, hp⟩ := Phi_centre D hd (y := y) (by linarith)
  have hl := PhiR_lip y z
  have hpx : |p - x| ≤ 1.4e-6 := by
    have := abs_add_le (p - PhiR y) (PhiR y - PhiR z)
    rw [sub_add_sub_cancel] at this
    rw [hz] at this hl
    linarith
  obtain ⟨v, ev, hv⟩ := sub_err D (a := p) (b := x) (hpx.trans (by norm_num))
  have hyy : y * y ≤ 4.0001 := by
    rw [← abs_mul_abs_self]
    calc |y| * |y| ≤ 2.00001 * 2.00001 := mul_le_mul hyb hyb (abs_nonneg _) (by norm_num)
      _ ≤ 4.0001 := by norm_num
  have hW : 2 * (Real.sqrt (2 * Real.pi) * Real.exp (y * y / 2) * 0.025) ≤ 1.1 := by
    obtain ⟨s1, s2⟩ := sqrt2pi_bounds
    have e1 : Real.exp (y * y / 2) ≤ 7.5 := by
      have h1 := Real.exp_one_lt_d9
      have h3 := (abs_le.1 (abs_exp_sub_one (t := 1e-3) (e := 1e-3) (by norm_num [abs_le]) (by norm_num))).2
      calc Real.exp (y * y / 2) ≤ Real.exp (1 + 1 + 1e-3) := Real.exp_le_exp.2 (by linarith)
        _ = Real.exp 1 * Real.exp 1 * Real.exp 1e-3 := by rw [Real.exp_add, Real.exp_add]
        _ ≤ 2.7182818286 * 2.7182818286 * 1.002 := by
          have := Real.exp_pos 1
          gcongr
          linarith
        _ ≤ 7.5 := by norm_num
    have : Real.sqrt (2 * Real.pi) * Real.exp (y * y / 2) ≤ 2.51 * 7.5 := mul_le_mul (by linarith) e1 (Real.exp_pos _).le (by norm_num)
    linarith
  obtain ⟨y', ey, hy'⟩ := step D hd (K := 2) (X := 0.025) (ρ := 8.5e-14) (v := v) (by norm_num) (by norm_num) h2 (by linarith) (by linarith)
    (by rw [ep, ev]) (by linarith) (by norm_num) (by norm_num) (by
      rw [hz]
      have q := abs_add_le (v - (p - x)) (p - PhiR y)
      rw [show v - (p - x) + (p - PhiR y) = v - (PhiR y - x) by ring] at q
      linarith) (by linarith) hW
  refine ⟨y', ey, by
    have := abs_add_le (y' - z) z
    rw [sub_add_cancel] at this; linarith, ?_⟩
  have := PhiR_lip y' z
  rw [hz] at this
  linarith

/-! ### The function -/

theorem lits (D : DoubleWithin M d) : (∃ l : ℝ, lit M 0.02425 = fin l ∧ |l - 0.02425| ≤ 1e-16) ∧ lit M (1 - 0.02425) = fin (8788774672813523 * 2 ^ (-53 : ℤ)) := by
  constructor
  · obtain ⟨l, e, h⟩ := lit_err D 0.02425 (by norm_num [abs_le])
    refine ⟨l, e, h.trans ?_⟩
    rw [abs_of_pos (by norm_num)]
    linarith [tiny_le]
  · refine rnd_half D (n := 8788774672813523) (by norm_num) (by norm_num) (by norm_num) (by norm_num) ?_
    norm_num [abs_lt]

theorem refine_step {stp : XR → XR} {y : ℝ} : refine false stp (fin y) = stp (fin y) := by
  have hf : isFinite (fin y) := trivial
  simp only [refine, if_pos hf, Bool.false_eq_true, false_and, if_false]

theorem log_fits {t : ℝ} (h0 : (2 : ℝ)⁻¹ ^ 1074 ≤ t) (h1 : t ≤ 1) : |Real.log t| ≤ 1e300 := by
  have ht : 0 < t := lt_of_lt_of_le (by positivity) h0
  have a := Real.log_nonpos ht.le h1
  have b := log_lo h0
  rw [abs_of_nonpos a]
  linarith

/-- The value of `inv_Phi(double)`. -/
theorem invPhi_value (D : DoubleWithin M d) (hd : d ≤ 9e-16) {x : ℝ} (hR : M.Rep x) (h0 : (2 : ℝ)⁻¹ ^ 1022 ≤ x) (h1 : x < 1) :
    ∃ y : ℝ, invPhiDouble M (fin x) = fin y ∧ |y| ≤ 38 ∧ (x ≤ 1 / 2 → |PhiR y - x| ≤ 3e-12 * x) ∧ (1 / 2 ≤ x → |PhiR y - x| ≤ 3e-12 * (1 - x) + 2e-16) := by
  have hx : 0 < x := lt_of_lt_of_le (by positivity) h0
  obtain ⟨⟨l, el, hl⟩, eh⟩ := lits D
  obtain ⟨l1, l2⟩ := abs_le.1 hl
  unfold invPhiDouble Rounded.invPhi Rounded.invPhiApprox
  rw [el, eh]
  simp only [ofNat_fin, fin_lt, fin_eq]
  rw [if_neg (by push Not; norm_num; constructor <;> linarith), if_neg (by norm_num; linarith), if_neg (by norm_num; linarith)]
  split_ifs with c c'
  · have hx2 : x < 0.02425 := by
      by_contra hc
      push Not at hc
      have R : Rounding M.rnd := by rw [D.rnd]; exact ieee_rounding (by norm_num) (by norm_num) (by norm_num)
      have := R.mono _ _ hc
      rw [hR, show M.rnd 0.02425 = fin l from el] at this
      exact absurd this (by rw [fin_le]; linarith)
    obtain ⟨ζ, hζ⟩ := exists_PhiR hx h1
    obtain ⟨L, eL, hL⟩ := D.ln x hx (log_fits (le_trans (pow_le_pow_of_le_one (by norm_num) (by norm_num) (by norm_num)) h0) h1.le)
    obtain ⟨z1, z2, q, y, -, eq, ey, hy, -⟩ := tail_guess D hd (ζ := -ζ) (le_trans (pow_le_pow_of_le_one (by norm_num) (by norm_num) (by norm_num)) h0) hx2.le hL (by rw [neg_neg]; exact hζ)
    obtain ⟨y', ey', hb, hy'⟩ := lower D hd (ζ := -ζ) h0 (by rw [neg_neg]; exact hζ) z1 hy
    refine ⟨y', by rw [eL, eq, ey, refine_step, ey'], hb, fun _ => by linarith, fun h => by linarith⟩
  · have hx0 : 0.02424998 ≤ x := by linarith
    have hx2 : x ≤ 1 - 0.02424998 := by
      have : (8788774672813523 * 2 ^ (-53 : ℤ) : ℝ) ≤ 1 - 0.02424998 := by norm_num
      exact c'.le.trans this
    obtain ⟨z, hz⟩ := exists_PhiR hx h1
    obtain ⟨z2, q, r, y, eq, er, ey, hy⟩ := centre_guess D hx0 hx2 hz
    obtain ⟨y', ey', hb, hy'⟩ := central D hd hz z2 hy
    refine ⟨y', by rw [eq, er, ey, refine_step, ey'], hb, fun _ => by linarith, fun h => by linarith⟩
  · have ht : 1 - x ≤ 0.02425 := by
      have : (8788774672813523 * 2 ^ (-53 : ℤ) : ℝ) ≥ 1 - 0.02425 := by norm_num
      have := this.le.trans (not_lt.1 c')
      linarith
    obtain ⟨n, hn⟩ := rep_half D (by linarith) h1 hR
    obtain ⟨z, hz⟩ := exists_PhiR hx h1
    have ht1 : (2 : ℝ)⁻¹ ^ 1074 ≤ 1 - x := le_trans (pow_le_pow_of_le_one (by norm_num) (by norm_num) (by norm_num)) (one_sub_ge hn h1)
    obtain ⟨L, eL, hL⟩ := D.ln1p (-x) (by linarith) (by rw [← sub_eq_add_neg]; exact log_fits ht1 (by linarith))
    rw [← sub_eq_add_neg] at hL
    have hz' : PhiR (-z) = 1 - x := by rw [PhiR_neg, hz]
    obtain ⟨z1, z2, q, -, y, eq, -, -, ey, hy⟩ := tail_guess D hd ht1 ht hL hz'
    obtain ⟨y', ey', hb, hy'⟩ := upper D hd hR h1 (by ring) ht hz' z1 hy
    refine ⟨y', by rw [neg_fin, eL, eq, ey, refine_step, ey'], hb, fun h => by linarith, fun _ => by linarith⟩

/-- A sample of the normal distribution. -/
theorem normal_value (D : DoubleWithin M d) (hd : d ≤ 9e-16) {c k e u mu sigma : ℝ} (hR : M.Rep u) (h0 : (2 : ℝ)⁻¹ ^ 1022 ≤ u) (h1 : u < 1)
    (hs : |sigma| ≤ 1e290) (hm : |mu| ≤ 1e290) :
    ∃ y r : ℝ, invPhiDouble M (fin u) = fin y ∧ (Rounded.normal M (invPhiDouble M) c k e (fin mu) (fin sigma)).draw (fin u) = fin r ∧
      |r - (sigma * y + mu)| ≤ 2.5e-16 * (|sigma * y| + |mu|) + 3 * tiny := by
  obtain ⟨y, ey, hy, -⟩ := invPhi_value D hd hR h0 h1
  have ht := tiny_le
  have ht0 := tiny_pos
  have hb : |y * sigma| ≤ 38 * 1e290 := by rw [abs_mul]; exact mul_le_mul hy hs (abs_nonneg _) (by norm_num)
  obtain ⟨m, em, hm'⟩ := mul_err D (a := y) (b := sigma) (hb.trans (by norm_num))
  rw [mul_comm y sigma] at hm' hb
  have hmb : |m| ≤ 1.0001 * |sigma * y| + tiny := by
    have := abs_add_le (m - sigma * y) (sigma * y)
    rw [sub_add_cancel] at this
    linarith [abs_nonneg (sigma * y)]
  have hsum : |m + mu| ≤ 1.0001 * |sigma * y| + tiny + |mu| := (abs_add_le _ _).trans (by linarith)
  obtain ⟨r, er, hr⟩ := add_err D (a := m) (b := mu) (hsum.trans (by linarith))
  refine ⟨y, r, ey, by show M.add (M.mul (invPhiDouble M (fin u)) (fin sigma)) (fin mu) = fin r; rw [ey, em, er], ?_⟩
  have t := abs_add_le (r - (m + mu)) (m - sigma * y)
  rw [show r - (m + mu) + (m - sigma * y) = r - (sigma * y + mu) by ring] at t
  linarith [abs_nonneg (sigma * y), abs_nonneg mu]

/-! ### The failure for small numbers -/

theorem quantile_ge {ζ b : ℝ} {n : ℕ} (hb : 1 ≤ b) (hζ : PhiR (-ζ) ≤ (2 : ℝ)⁻¹ ^ n) (hn : b ^ 2 / 2 + Real.log (2.507 * (b + 1)) ≤ n * 0.6931471803) : b ≤ ζ := by
  have hb0 : 0 < b := by linarith
  by_contra hc
  push Not at hc
  have h1 : PhiR (-b) < PhiR (-ζ) := strictMono_PhiR (by linarith)
  have h2 := mills_ge hb0
  obtain ⟨s1, s2⟩ := sqrt2pi_bounds
  have h3 : Real.exp (-b ^ 2 / 2) ≤ 2.507 * (b + 1) * PhiR (-b) := by
    have e : phiR b * Real.sqrt (2 * Real.pi) = Real.exp (-b ^ 2 / 2) := by
      rw [phiR, show -b * b / 2 = -b ^ 2 / 2 by ring]; field_simp
    have hP := PhiR_pos (-b)
    have hφ := phiR_pos b
    have h4 : phiR b ≤ (b + 1) * PhiR (-b) := by
      have : phiR b * b ≤ (b + 1) * PhiR (-b) * b := h2.trans (by nlinarith)
      exact le_of_mul_le_mul_right this hb0
    rw [← e]
    calc phiR b * Real.sqrt (2 * Real.pi) ≤ (b + 1) * PhiR (-b) * 2.507 := mul_le_mul h4 (by linarith) (Real.sqrt_nonneg _) (by positivity)
      _ = _ := by ring
  have h4 : Real.exp (-b ^ 2 / 2) < 2.507 * (b + 1) * (2 : ℝ)⁻¹ ^ n :=
    h3.trans_lt (mul_lt_mul_of_pos_left (h1.trans_le hζ) (by positivity))
  have h5 := (Real.lt_log_iff_exp_lt (by positivity)).2 h4
  rw [Real.log_mul (by positivity) (by positivity), Real.log_pow, Real.log_inv] at h5
  have h6 := Real.log_two_gt_d9
  have h7 : (n : ℝ) * 0.6931471803 ≤ n * Real.log 2 := mul_le_mul_of_nonneg_left (by linarith) (Nat.cast_nonneg n)
  linarith

theorem inf_nan {y : ℝ} (hy : y ≠ 0) {u : XR} (hu : u = pinf ∨ u = ninf ∨ u = nan) :
    M.sub (fin y) (M.div u (M.add 1 (M.mul (M.mul (fin y) u) (fin (1 / 2))))) = nan := by
  have hs : M.mul (fin y) pinf = pinf ∨ M.mul (fin y) pinf = ninf := by
    rcases lt_or_gt_of_ne hy with h | h
    · right; show M.round (infSign y) = ninf; rw [infSign, if_neg (by linarith), if_pos h]; rfl
    · left; show M.round (infSign y) = pinf; rw [infSign, if_pos h]; rfl
  have hs' : M.mul (fin y) ninf = pinf ∨ M.mul (fin y) ninf = ninf := by
    rcases lt_or_gt_of_ne hy with h | h
    · left; show M.round (infSign (-y)) = pinf; rw [infSign, if_pos (by linarith)]; rfl
    · right; show M.round (infSign (-y)) = ninf; rw [infSign, if_neg (by linarith), if_pos (by linarith)]; rfl
  have hp : M.mul pinf (fin (1 / 2)) = pinf := by show M.round (infSign _) = pinf; rw [infSign, if_pos (by norm_num)]; rfl
  have hn : M.mul ninf (fin (1 / 2)) = ninf := by
    show M.round (infSign _) = ninf; rw [infSign, if_neg (by norm_num), if_pos (by norm_num)]; rfl
  rcases hu with rfl | rfl | rfl
  · rcases hs with e | e <;> rw [e]
    · rw [hp]; rfl
    · rw [hn]; rfl
  · rcases hs' with e | e <;> rw [e]
    · rw [hp]; rfl
    · rw [hn]; rfl
  · rfl

theorem mul_pinf_cases (a : XR) : M.mul a pinf = pinf ∨ M.mul a pinf = ninf ∨ M.mul a pinf = nan := by
  cases a with
  | nan => exact .inr (.inr rfl)
  | ninf => exact .inr (.inl rfl)
  | pinf => exact .inl rfl
  | fin x =>
    show M.round (infSign x) = _ ∨ M.round (infSign x) = _ ∨ M.round (infSign x) = _
    unfold infSign
    split_ifs
    · exact .inl rfl
    · exact .inr (.inl rfl)
    · exact .inr (.inr rfl)

theorem rep_ge_tiny (D : DoubleWithin M d) {x : ℝ} (h0 : 0 < x) (hx : M.Rep x) : (2 : ℝ)⁻¹ ^ 1074 ≤ x := by
  unfold Machine.Rep at hx
  rw [D.rnd, ieee_nonneg h0.le] at hx
  split_ifs at hx
  rw [fin_inj] at hx
  unfold nearestPos at hx
  have he : -1074 ≤ ulpExp 53 (-1074) x := by unfold ulpExp; omega
  generalize ulpExp 53 (-1074) x = e at *
  generalize nearestEven (x / 2 ^ e) = k at *
  have hp := two_zpow_pos e
  have hk : 0 < (k : ℝ) := by
    by_contra hc
    push Not at hc
    nlinarith
  have hk1 : (1 : ℝ) ≤ k := by
    have : 0 < k := by exact_mod_cast hk
    exact_mod_cast this
  rw [← hx, inv_pow, ← zpow_natCast, ← zpow_neg]
  calc (2 : ℝ) ^ (-((1074 : ℕ) : ℤ)) ≤ 2 ^ e := zpow_le_zpow_right₀ one_le_two (by simpa using he)
    _ ≤ k * 2 ^ e := le_mul_of_one_le_left hp.le hk1

/-- For subnormal arguments that are small enough the step divides infinity by infinity. -/
theorem invPhi_nan (D : DoubleWithin M d) (hd : d ≤ 9e-16) {x : ℝ} (hR : M.Rep x) (h0 : 0 < x) (h1 : x ≤ (2 : ℝ)⁻¹ ^ 1032) :
    invPhiDouble M (fin x) = nan := by
  have hx74 := rep_ge_tiny D h0 hR
  have hx2 : x ≤ 0.02 := h1.trans ((pow_le_pow_of_le_one (by norm_num) (by norm_num) (show 6 ≤ 1032 by norm_num)).trans (by norm_num))
  obtain ⟨⟨l, el, hl⟩, -⟩ := lits D
  obtain ⟨l1, l2⟩ := abs_le.1 hl
  obtain ⟨ζ, hζ⟩ := exists_PhiR h0 (by linarith)
  obtain ⟨L, eL, hL⟩ := D.ln x h0 (log_fits hx74 (by linarith))
  obtain ⟨z1, z2, q, y, -, eq, ey, hy, -⟩ := tail_guess D hd (ζ := -ζ) hx74 (by linarith) hL (by rw [neg_neg]; exact hζ)
  have hz3 : 37.69 ≤ -ζ := by
    refine quantile_ge (n := 1032) (by norm_num) (by rw [neg_neg, hζ]; exact h1) ?_
    have : Real.log (2.507 * (37.69 + 1)) ≤ 7 * 0.6931471808 := by
      have h2 := Real.log_two_lt_d9
      calc Real.log (2.507 * (37.69 + 1)) ≤ Real.log (2 ^ 7) := Real.log_le_log (by norm_num) (by norm_num)
        _ = 7 * Real.log 2 := by rw [Real.log_pow]; norm_num
        _ ≤ _ := by linarith
    norm_num at this ⊢
    linarith
  have hyζ : |y + -ζ| ≤ 4e-6 := by nlinarith [abs_nonneg (y + -ζ)]
  obtain ⟨y1, y2⟩ := abs_le.1 hyζ
  have hyl : y ≤ -37.6899 := by linarith
  have hyu : -39.8 ≤ y := by linarith
  have hyy : 1420.5 ≤ y * y := by nlinarith
  have hyy' : y * y ≤ 1600 := by nlinarith
  have ht := tiny_le
  obtain ⟨m, em, hm⟩ := mul_err D (a := y) (b := y) (by rw [abs_of_nonneg (by linarith)]; linarith)
  rw [abs_of_nonneg (show 0 ≤ y * y by linarith)] at hm
  obtain ⟨m1, m2⟩ := abs_le.1 (hm.trans (show _ ≤ 1e-3 by linarith))
  have hmh : |m * (1 / 2)| ≤ 801 := abs_le.2 ⟨by linarith, by linarith⟩
  obtain ⟨n, en, hn⟩ := mul_err D (a := m) (b := 1 / 2) (hmh.trans (by norm_num))
  obtain ⟨n1, n2⟩ := abs_le.1 (hn.trans (show _ ≤ 1e-3 by linarith))
  have hexp := D.exp_over n (by linarith)
  unfold invPhiDouble Rounded.invPhi Rounded.invPhiApprox
  rw [el]
  simp only [ofNat_fin, fin_lt, fin_eq]
  rw [if_neg (by push Not; norm_num; constructor <;> linarith), if_neg (by norm_num; linarith), if_neg (by norm_num; linarith), if_pos (by linarith),
    eL, eq, ey, refine_step]
  unfold Rounded.halleyPhi
  simp only
  rw [em, en, hexp]
  exact inf_nan (by linarith) (mul_pinf_cases _)

/-- The arithmetic of `double` with a correctly rounded library. -/
theorem double_within : DoubleWithin doubleMachine 1.2e-16 := by
  have fits : ∀ v : ℝ, |v| ≤ 2 ^ (1023 : ℤ) → Close 1.2e-16 (ieee 53 (-1074) 1024 v) v := fun v hv => by
    obtain ⟨r, er, hr⟩ := ieee_err hv
    exact ⟨r, er, hr.trans err_le⟩
  have big : (1e300 : ℝ) ≤ 2 ^ (1023 : ℤ) :=
    (le_abs_self _).trans ((big_le (abs_of_pos (by norm_num)).le le_rfl).trans (zpow_le_zpow_right₀ one_le_two (by norm_num)))
  have one : (2 : ℝ) ≤ 2 ^ (1023 : ℤ) := le_trans (by norm_num) big
  refine ⟨rfl, fun x hx => ?_, fun x hx => (dbl_exp hx).1, fun x hx hl => ?_, fun x hx hl => ?_, fun x hx hl => ?_, fun x => ?_, fun x => ?_⟩
  · refine fits _ ?_
    rw [abs_of_pos (Real.exp_pos _), show (1023 : ℤ) = ((1023 : ℕ) : ℤ) by norm_num, zpow_natCast, ← Real.le_log_iff_exp_le (by positivity), Real.log_pow]
    have := Real.log_two_gt_d9
    norm_num at this ⊢
    linarith
  · have e : doubleMachine.ln (fin x) = ieee 53 (-1074) 1024 (Real.log x) := by
      show (match XR.ln (fin x) with | fin x => ieee 53 (-1074) 1024 x | y => y) = _
      rw [ln_fin hx]
    rw [e]; exact fits _ (hl.trans big)
  · have e : doubleMachine.ln1p (fin x) = ieee 53 (-1074) 1024 (Real.log (1 + x)) := by
      show (match XR.ln1p (fin x) with | fin x => ieee 53 (-1074) 1024 x | y => y) = _
      rw [ln1p_fin (by linarith)]
    rw [e]; exact fits _ (hl.trans big)
  · have e : doubleMachine.sqrt (fin x) = ieee 53 (-1074) 1024 (Real.sqrt x) := by
      show (match XR.sqrt (fin x) with | fin x => ieee 53 (-1074) 1024 x | y => y) = _
      rw [sqrt_fin hx]
    rw [e]
    refine fits _ ?_
    rw [abs_of_nonneg (Real.sqrt_nonneg _)]
    refine le_trans (Real.sqrt_le_iff.2 ⟨by norm_num, hl.trans ?_⟩) big
    norm_num
  · refine fits _ ?_
    exact (abs_erfR_le x).trans (le_trans (by norm_num) one)
  · refine fits (1 - erfR x) ?_
    have := abs_le.1 (abs_erfR_le x)
    refine le_trans (abs_le.2 ⟨?_, ?_⟩) one <;> linarith
where
  abs_erfR_le (x : ℝ) : |erfR x| ≤ 1 := by
    have h := erf_eq x
    have h1 := PhiR_pos (x * Real.sqrt 2)
    have h2 := PhiR_lt_one (x * Real.sqrt 2)
    exact abs_le.2 ⟨by linarith, by linarith⟩

/-! ### Without rounding -/

theorem infSign_neg (s : ℝ) : infSign (-s) = -infSign s := by
  rcases lt_trichotomy s 0 with h | rfl | h
  · rw [infSign, infSign, if_pos (by linarith), if_neg (by linarith), if_pos h]; rfl
  · rw [infSign, infSign]; simp
  · rw [infSign, infSign, if_neg (by linarith), if_pos (by linarith), if_pos h]; rfl
theorem neg_div_xr (a b : XR) : -a / b = -(a / b) := by
  rcases a with _ | _ | x | _ <;> rcases b with _ | _ | y | _ <;> try rfl
  · show XR.div _ _ = -XR.div _ _
    simp only [XR.div, neg_ninf]; split_ifs <;> rfl
  · show fin 0 = fin (-0); rw [neg_zero]
  · show XR.div (fin (-x)) (fin y) = -XR.div (fin x) (fin y)
    simp only [XR.div]; split_ifs
    · exact infSign_neg x
    · rw [neg_div]; rfl
  · show fin 0 = fin (-0); rw [neg_zero]
  · show XR.div _ _ = -XR.div _ _
    simp only [XR.div, neg_pinf]; split_ifs <;> rfl

theorem exact_approx (x : XR) : Rounded.invPhiApprox .exact x = Trng.invPhiApprox x := by
  simp only [Rounded.invPhiApprox, Trng.invPhiApprox, tailNum, tailDen, centreNum, centreDen, lit, acklamTail, acklamCentre,
    Machine.add, Machine.mul, Machine.div, Machine.sub, exact_round, fin_half, fin_neg_two, neg_div_xr]
  rfl

theorem exact_step (x y : XR) :
    Rounded.halleyPhi .exact (1 / Real.sqrt 2) 0.6744897501960817 (Real.sqrt (2 * Real.pi)) x y = Trng.halleyPhi x y := by
  simp only [Rounded.halleyPhi, Trng.halleyPhi, Rounded.Phi, Trng.Phi, Machine.add, Machine.mul, Machine.div, Machine.sub, exact_round, fin_half]
  rfl

theorem exact_eq (wide : Bool) (x : XR) :
    Rounded.invPhi .exact (1 / Real.sqrt 2) 0.6744897501960817 (Real.sqrt (2 * Real.pi)) wide x = Trng.invPhi wide x := by
  rw [Rounded.invPhi, Trng.invPhi, exact_approx]
  congr 1
  funext y
  exact exact_step x y

end Trng.Inverse
