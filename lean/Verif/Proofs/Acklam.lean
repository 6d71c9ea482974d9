import Verif.Proofs.AcklamCert
import Verif.Proofs.Halley
import Mathlib.Analysis.Real.Pi.Bounds
import Mathlib.Analysis.SpecialFunctions.Log.Deriv
import Mathlib.Analysis.SpecialFunctions.Exponential

/-! The error of the rational approximations of inv_Phi_approx.  If `A` approximates the inverse of the normal distribution
function `Φ`, then `Φ(A(p))` has the derivative `exp(h(p))` where `h` is small, and the derivative of `h` is a quotient of
polynomials, which the chains of intervals in AcklamCert bound. -/
namespace Trng.Acklam
open PolyBound Set

theorem sqrt2pi_bounds : (2.50662827462 : ℝ) < Real.sqrt (2 * Real.pi) ∧ Real.sqrt (2 * Real.pi) < 2.50662827464 := by
  have h1 := Real.pi_gt_d20
  have h2 := Real.pi_lt_d20
  constructor
  · apply Real.lt_sqrt_of_sq_lt; norm_num; norm_num at h1; linarith
  · rw [Real.sqrt_lt' (by norm_num)]; norm_num; norm_num at h2; linarith

theorem abs_exp_sub_one {t e : ℝ} (h : |t| ≤ e) (he : e ≤ 1 / 100) : |Real.exp t - 1| ≤ 1.01 * e := by
  have h1 := Real.abs_exp_sub_one_sub_id_le (x := t) (h.trans (he.trans (by norm_num)))
  have h2 : t ^ 2 ≤ 1 / 100 * e := by
    rw [← sq_abs, sq]
    exact mul_le_mul (h.trans he) h (abs_nonneg _) (by norm_num)
  calc |Real.exp t - 1| = |(Real.exp t - 1 - t) + t| := by ring_nf
    _ ≤ |Real.exp t - 1 - t| + |t| := abs_add_le _ _
    _ ≤ 1.01 * e := by norm_num; linarith

/-! ### The central region -/

section centre
variable {r : ℝ} (h0 : 0 ≤ r) (h1 : r ≤ 0.2263381)
include h0 h1

theorem bP_pos : 0 < pev bP r :=
  (piece_bound (by decide) (by decide) (by decide) b_pos (x := r) (by push_cast; simpa using h0) (by push_cast; norm_num at h1 ⊢; linarith)).1
theorem vP_pos : 0 < pev vP r :=
  (piece_bound (by decide) (by decide) (by decide +kernel) v_pos (x := r) (by push_cast; simpa using h0) (by push_cast; norm_num at h1 ⊢; linarith)).1
end centre

theorem pev_vP (r : ℝ) : pev vP r = pev aP r * pev bP r + 2 * r * (pev (pder aP) r * pev bP r - pev aP r * pev (pder bP) r) := by
  have : pev [0, 2] r = 2 * r := by simp [pev]; ring
  rw [vP, pev_add, pev_mul, pev_mul, pev_sub, pev_mul, pev_mul, this]
theorem pev_numC (r : ℝ) : pev numC r = 2 * (pev (pder vP) r * pev bP r ^ 3) - 4 * (pev (pder bP) r * pev bP r ^ 2 * pev vP r) -
    pev aP r * pev vP r ^ 2 := by
  simp only [numC, b3P, pev_sub, pev_sc, pev_mul]; push_cast; ring
theorem pev_denC (r : ℝ) : pev denC r = 2 * (pev vP r * pev bP r ^ 3) := by
  simp only [denC, b3P, pev_sc, pev_mul]; push_cast; ring

/-- logarithm of the derivative of `Φ(A(q))`, up to a constant, with `r = q²` -/
noncomputable def HC (r : ℝ) : ℝ := Real.log (pev vP r) - 2 * Real.log (pev bP r) - r * (pev aP r / pev bP r) ^ 2 / 2

theorem hasDerivAt_HC {r : ℝ} (h0 : 0 ≤ r) (h1 : r ≤ 0.2263381) : HasDerivAt HC (pev numC r / pev denC r) r := by
  have hb := bP_pos h0 h1
  have hv := vP_pos h0 h1
  have d1 := (hasDerivAt_pev vP r).log hv.ne'
  have d2 := ((hasDerivAt_pev bP r).log hb.ne').const_mul 2
  have d3 := ((hasDerivAt_pev aP r).div (hasDerivAt_pev bP r) hb.ne').pow 2
  have d4 := ((hasDerivAt_id' r).mul d3).div_const 2
  refine ((d1.sub d2).sub d4).congr_deriv ?_
  rw [pev_numC, pev_denC]
  have e := pev_vP r
  have e2 : pev aP r * pev vP r / (2 * pev bP r ^ 3) = pev aP r ^ 2 / (2 * pev bP r ^ 2) +
      r * pev aP r * (pev (pder aP) r * pev bP r - pev aP r * pev (pder bP) r) / pev bP r ^ 3 := by
    rw [e]; field_simp
  have e3 : (2 * (pev (pder vP) r * pev bP r ^ 3) - 4 * (pev (pder bP) r * pev bP r ^ 2 * pev vP r) -
    pev aP r * pev vP r ^ 2) / (2 * (pev vP r * pev bP r ^ 3)) = pev (pder vP) r / pev vP r - 2 * (pev (pder bP) r / pev bP r) -
      pev aP r * pev vP r / (2 * pev bP r ^ 3) := by field_simp; ring
  rw [e3, e2]
  simp only [Pi.div_apply, Pi.pow_apply, Nat.cast_ofNat, pow_one, show (2 - 1 : ℕ) = 1 from rfl]
  field_simp

theorem HC_bounds : (∀ r : ℝ, 0 ≤ r → r ≤ 0.2025 → |HC r - HC 0| ≤ 7e-8) ∧ ∀ r : ℝ, 0.2025 ≤ r → r ≤ 0.2263381 → |HC r - HC 0| ≤ 6.7e-7 := by
  have hder : ∀ x : ℝ, 0 ≤ x → x ≤ 0.2263381 → HasDerivAt (fun r => HC r - HC 0) (pev numC x / pev denC x) x ∧
      pev numC x / pev denC x * pev denCL x = pev numCL x := by
    intro x h0 h1
    have hb := bP_pos h0 h1
    have hv := vP_pos h0 h1
    refine ⟨(hasDerivAt_HC h0 h1).sub_const _, ?_⟩
    rw [numCL_eq, denCL_eq, div_mul_cancel₀]
    rw [pev_denC]; positivity
  obtain ⟨⟨_, A1⟩, A2, A3⟩ := chain_bound (F := fun r => HC r - HC 0) (F' := fun x => pev numC x / pev denC x) (by decide) (by decide) (by decide)
    piecesC1 0 0 0 chainC1 (fun x h0 h1 => hder x (by simpa using h0) (by push_cast at h1; norm_num at h1 ⊢; linarith))
    (by simp) (by simp)
  obtain ⟨⟨_, B1⟩, _⟩ := chain_bound (F := fun r => HC r - HC 0) (F' := fun x => pev numC x / pev denC x) (by decide) (by decide) (by decide)
    piecesC2 _ _ _ chainC2 (fun x h0 h1 => hder x (by push_cast at h0; norm_num at h0; linarith) (by push_cast at h1; norm_num at h1 ⊢; linarith))
    A2 A3
  constructor
  · intro r h0 h1
    have := A1 r (by simpa using h0) (by push_cast; norm_num at h1 ⊢; linarith)
    push_cast at this
    rw [abs_le]
    constructor <;> norm_num at this ⊢ <;> linarith
  · intro r h0 h1
    have := B1 r (by push_cast; norm_num at h0 ⊢; linarith) (by push_cast; norm_num at h1 ⊢; linarith)
    push_cast at this
    rw [abs_le]
    constructor <;> norm_num at this ⊢ <;> linarith

/-- the approximation of the central region -/
noncomputable def AC (q : ℝ) : ℝ := q * pev aP (q ^ 2) / pev bP (q ^ 2)

theorem AC_neg (q : ℝ) : AC (-q) = -AC q := by simp [AC, neg_div]

theorem sq_range {q : ℝ} (h0 : 0 ≤ q) (h1 : q ≤ 0.47575003) : 0 ≤ q ^ 2 ∧ q ^ 2 ≤ 0.2263381 := by
  refine ⟨sq_nonneg _, ?_⟩
  have := pow_le_pow_left₀ h0 h1 2
  norm_num at this ⊢
  linarith

theorem hasDerivAt_AC {q : ℝ} (h0 : 0 ≤ q) (h1 : q ≤ 0.47575003) : HasDerivAt AC (pev vP (q ^ 2) / pev bP (q ^ 2) ^ 2) q := by
  obtain ⟨r0, r1⟩ := sq_range h0 h1
  have hb := bP_pos r0 r1
  have ds : HasDerivAt (fun q : ℝ => q ^ 2) (2 * q) q := by simpa using hasDerivAt_pow 2 q
  have da := (hasDerivAt_pev aP (q ^ 2)).comp q ds
  have db := (hasDerivAt_pev bP (q ^ 2)).comp q ds
  have := ((hasDerivAt_id' q).mul da).div db hb.ne'
  refine this.congr_deriv ?_
  simp only [Function.comp_apply, Pi.mul_apply]
  rw [pev_vP]
  congr 1
  ring

theorem phi_AC {q : ℝ} (h0 : 0 ≤ q) (h1 : q ≤ 0.47575003) :
    phiR (AC q) * (pev vP (q ^ 2) / pev bP (q ^ 2) ^ 2) = Real.exp (HC (q ^ 2)) / Real.sqrt (2 * Real.pi) := by
  obtain ⟨r0, r1⟩ := sq_range h0 h1
  have hb := bP_pos r0 r1
  have hv := vP_pos r0 r1
  rw [phiR, HC, Real.exp_sub, Real.exp_sub, Real.exp_log hv, mul_comm (2 : ℝ) (Real.log _), Real.exp_mul, Real.exp_log hb]
  have e : -AC q * AC q / 2 = -(q ^ 2 * (pev aP (q ^ 2) / pev bP (q ^ 2)) ^ 2 / 2) := by rw [AC]; ring
  have e2 : pev bP (q ^ 2) ^ (2 : ℝ) = pev bP (q ^ 2) ^ 2 := by norm_cast
  rw [e, Real.exp_neg, e2]
  field_simp

theorem HC_zero : Real.exp (HC 0) = 2.506628277459239 := by
  have hb : pev bP 0 = 1000000000000000 := by simp [pev, bP]
  have ha : pev aP 0 = 2506628277459239 := by simp [pev, aP]
  have hv : pev vP 0 = 2506628277459239 * 1000000000000000 := by rw [pev_vP, ha, hb]; ring
  rw [HC, hv, hb, zero_mul, zero_div, sub_zero, Real.exp_sub, Real.exp_log (by norm_num), mul_comm (2 : ℝ), Real.exp_mul, Real.exp_log (by norm_num)]
  norm_num

theorem deriv_err {t e : ℝ} (h : |HC t - HC 0| ≤ e) (he : e ≤ 1e-6) : |Real.exp (HC t) / Real.sqrt (2 * Real.pi) - 1| ≤ 1.02 * e + 2e-9 := by
  obtain ⟨s1, s2⟩ := sqrt2pi_bounds
  have h1 := abs_exp_sub_one h (he.trans (by norm_num))
  have hs : 0 < Real.sqrt (2 * Real.pi) := by positivity
  have e1 : Real.exp (HC t) / Real.sqrt (2 * Real.pi) = Real.exp (HC t - HC 0) * (2.506628277459239 / Real.sqrt (2 * Real.pi)) := by
    rw [Real.exp_sub, HC_zero]; field_simp
  obtain ⟨κ, hκ⟩ : ∃ κ, κ = 2.506628277459239 / Real.sqrt (2 * Real.pi) := ⟨_, rfl⟩
  have k1 : 1 ≤ κ := by rw [hκ, le_div_iff₀ hs]; norm_num at s2 ⊢; linarith
  have k2 : κ ≤ 1 + 1.5e-9 := by rw [hκ, div_le_iff₀ hs]; norm_num at s1 ⊢; linarith
  rw [e1, ← hκ]
  have he0 : 0 ≤ e := (abs_nonneg _).trans h
  rw [abs_le] at h1 ⊢
  norm_num at h1 he k2 ⊢
  constructor <;> nlinarith

theorem hasDerivAt_PhiAC {q : ℝ} (h0 : 0 ≤ q) (h1 : q ≤ 0.47575003) :
    HasDerivAt (fun q => PhiR (AC q) - q) (Real.exp (HC (q ^ 2)) / Real.sqrt (2 * Real.pi) - 1) q := by
  rw [← phi_AC h0 h1]
  exact ((hasDerivAt_PhiR (AC q)).comp q (hasDerivAt_AC h0 h1)).sub (hasDerivAt_id' q)

/-- bound of the increase of a function on an interval -/
theorem inc_le {f f' : ℝ → ℝ} {a b e : ℝ} (hab : a ≤ b) (hf : ∀ x, a ≤ x → x ≤ b → HasDerivAt f (f' x) x ∧ |f' x| ≤ e) :
    |f b - f a| ≤ e * (b - a) := by
  have := Convex.norm_image_sub_le_of_norm_hasDerivWithin_le (f := f) (f' := f') (s := Icc a b) (C := e) (x := a) (y := b)
    (fun x hx => (hf x hx.1 hx.2).1.hasDerivWithinAt) (fun x hx => by rw [Real.norm_eq_abs]; exact (hf x hx.1 hx.2).2) (convex_Icc a b)
    ⟨le_rfl, hab⟩ ⟨hab, le_rfl⟩
  rwa [Real.norm_eq_abs, Real.norm_eq_abs, abs_of_nonneg (show 0 ≤ b - a by linarith)] at this

theorem centre_pos {q : ℝ} (h0 : 0 ≤ q) (h1 : q ≤ 0.47575003) : |PhiR (AC q) - (q + 1 / 2)| ≤ 6e-8 := by
  have z : PhiR (AC 0) = 1 / 2 := by simp [AC, PhiR]
  obtain ⟨H1, H2⟩ := HC_bounds
  have E1 : ∀ q : ℝ, 0 ≤ q → q ≤ 0.45 → |PhiR (AC q) - (q + 1 / 2)| ≤ 7.4e-8 * q := by
    intro q h0 h1
    have := inc_le (f := fun q => PhiR (AC q) - q) (e := 7.4e-8) h0 (fun x hx hx' => by
      have hx'' : x ≤ 0.47575003 := by norm_num at h1 hx' ⊢; linarith
      refine ⟨hasDerivAt_PhiAC hx hx'', (deriv_err (H1 (x ^ 2) (sq_nonneg _) ?_) (by norm_num)).trans (by norm_num)⟩
      have := pow_le_pow_left₀ hx (hx'.trans h1) 2
      norm_num at this ⊢
      linarith)
    simp only [z, sub_zero] at this
    rwa [show PhiR (AC q) - q - 1 / 2 = PhiR (AC q) - (q + 1 / 2) by ring] at this
  rcases le_total q 0.45 with h | h
  · refine (E1 q h0 h).trans ?_
    norm_num at h ⊢
    linarith
  · have a1 := E1 0.45 (by norm_num) le_rfl
    have a2 := inc_le (f := fun q => PhiR (AC q) - q) (e := 7e-7) h (fun x hx hx' => by
      have hx0 : 0 ≤ x := le_trans (by norm_num) hx
      have hx1 : x ≤ 0.47575003 := hx'.trans h1
      refine ⟨hasDerivAt_PhiAC hx0 hx1, (deriv_err (H2 (x ^ 2) ?_ (sq_range hx0 hx1).2) (by norm_num)).trans (by norm_num)⟩
      have := pow_le_pow_left₀ (by norm_num) hx 2
      norm_num at this ⊢
      linarith)
    rw [abs_le] at a1 a2 ⊢
    norm_num at a1 a2 h1 ⊢
    constructor <;> linarith

/-- The error in the central region. -/
theorem centre {q : ℝ} (h : |q| ≤ 0.47575003) : |PhiR (AC q) - (q + 1 / 2)| ≤ 6e-8 := by
  rcases le_total 0 q with h0 | h0
  · exact centre_pos h0 (by rwa [abs_of_nonneg h0] at h)
  · have := centre_pos (q := -q) (by linarith) (by rwa [abs_of_nonpos h0] at h)
    rw [AC_neg, PhiR_neg] at this
    rw [abs_sub_comm]
    convert this using 2
    ring

theorem AC_le {q : ℝ} (h : |q| ≤ 0.47575003) : |AC q| ≤ 1.98 := by
  have key : ∀ q : ℝ, 0 ≤ q → q ≤ 0.47575003 → 0 ≤ AC q ∧ AC q ≤ 1.98 := by
    intro q h0 h1
    have hmono : MonotoneOn AC (Icc 0 0.47575003) := by
      refine monotoneOn_of_deriv_nonneg (convex_Icc _ _) (fun x hx => (hasDerivAt_AC hx.1 hx.2).continuousAt.continuousWithinAt)
        (fun x hx => ?_) (fun x hx => ?_)
      · rw [interior_Icc] at hx
        exact (hasDerivAt_AC hx.1.le hx.2.le).differentiableAt.differentiableWithinAt
      · rw [interior_Icc] at hx
        rw [(hasDerivAt_AC hx.1.le hx.2.le).deriv]
        have := vP_pos (sq_range hx.1.le hx.2.le).1 (sq_range hx.1.le hx.2.le).2
        positivity
    have a1 := hmono (⟨le_rfl, by norm_num⟩ : (0 : ℝ) ∈ Icc 0 0.47575003) ⟨h0, h1⟩ h0
    have a2 := hmono (⟨h0, h1⟩ : q ∈ Icc 0 0.47575003) (⟨by norm_num, le_rfl⟩ : (0.47575003 : ℝ) ∈ Icc 0 0.47575003) h1
    refine ⟨by simpa [AC] using a1, a2.trans ?_⟩
    simp only [AC, pev, aP, bP]
    norm_num
  rcases le_total 0 q with h0 | h0
  · rw [abs_of_nonneg h0] at h
    rw [abs_of_nonneg (key q h0 h).1]
    exact (key q h0 h).2
  · rw [abs_of_nonpos h0] at h
    have := key (-q) (by linarith) h
    rw [AC_neg] at this
    rw [abs_of_nonpos (by linarith [this.1])]
    exact this.2

/-! ### The outer regions -/

section tail
variable {q : ℝ} (h0 : 2.727 ≤ q) (h1 : q ≤ 39.6)
include h0

omit h0 in
theorem dP_pos (h : 0 ≤ q) : 0 < pev dP q := by
  simp only [pev, dP]; positivity

include h1
theorem wP_pos : 0 < pev wP q :=
  (piece_bound (by decide) (by decide) (by decide +kernel) w_pos (x := q) (by push_cast; norm_num at h0 ⊢; linarith)
    (by push_cast; norm_num at h1 ⊢; linarith)).1
end tail

theorem pev_wP (q : ℝ) : pev wP q = pev (pder cP) q * pev dP q - pev cP q * pev (pder dP) q := by
  rw [wP, pev_sub, pev_mul, pev_mul]
theorem pev_numT (q : ℝ) : pev numT q = q * (pev (pder wP) q * pev dP q ^ 3 - 2 * (pev (pder dP) q * pev dP q ^ 2 * pev wP q) -
    pev cP q * pev wP q ^ 2) + (q ^ 2 - 1) * (pev wP q * pev dP q ^ 3) := by
  have e1 : pev [0, 1] q = q := by simp [pev]
  have e2 : pev [-1, 0, 1] q = q ^ 2 - 1 := by simp [pev]; ring
  simp only [numT, d3P, pev_add, pev_sub, pev_sc, pev_mul, e1, e2]; push_cast; ring
theorem pev_denT (q : ℝ) : pev denT q = q * (pev wP q * pev dP q ^ 3) := by
  have e1 : pev [0, 1] q = q := by simp [pev]
  simp only [denT, d3P, pev_add, pev_mul, e1]
  simp only [pev]; push_cast; ring

/-- the approximation of the outer regions, with the sign changed -/
noncomputable def AT (q : ℝ) : ℝ := pev cP q / pev dP q

theorem hasDerivAt_AT {q : ℝ} (h : 0 ≤ q) : HasDerivAt AT (pev wP q / pev dP q ^ 2) q := by
  rw [pev_wP]
  exact (hasDerivAt_pev cP q).div (hasDerivAt_pev dP q) (dP_pos h).ne'

/-- logarithm of the quotient of the derivatives of `Φ(-AT(q))` and of `exp(-q²/2)` -/
noncomputable def HT (q : ℝ) : ℝ := Real.log (pev wP q) - 2 * Real.log (pev dP q) - AT q ^ 2 / 2 + q ^ 2 / 2 - Real.log q -
  Real.log (Real.sqrt (2 * Real.pi))

theorem hasDerivAt_HT {q : ℝ} (h0 : 2.727 ≤ q) (h1 : q ≤ 39.6) : HasDerivAt HT (pev numT q / pev denT q) q := by
  have hq : 0 < q := lt_of_lt_of_le (by norm_num) h0
  have hd := dP_pos hq.le
  have hw := wP_pos h0 h1
  have d1 := (hasDerivAt_pev wP q).log hw.ne'
  have d2 := ((hasDerivAt_pev dP q).log hd.ne').const_mul 2
  have d3 := ((hasDerivAt_AT hq.le).pow 2).div_const 2
  have d4 := (hasDerivAt_pow 2 q).div_const 2
  have d5 := (hasDerivAt_id' q).log hq.ne'
  refine (((((d1.sub d2).sub d3).add d4).sub d5).sub_const _).congr_deriv ?_
  rw [pev_numT, pev_denT]
  simp only [AT, Nat.cast_ofNat, pow_one, show (2 - 1 : ℕ) = 1 from rfl]
  field_simp
  ring

theorem exp_HT {q : ℝ} (h0 : 2.727 ≤ q) (h1 : q ≤ 39.6) :
    Real.exp (HT q) = pev wP q / pev dP q ^ 2 / (q * Real.sqrt (2 * Real.pi)) * Real.exp ((q ^ 2 - AT q ^ 2) / 2) := by
  have hq : 0 < q := lt_of_lt_of_le (by norm_num) h0
  have hd := dP_pos hq.le
  have hw := wP_pos h0 h1
  have hs : 0 < Real.sqrt (2 * Real.pi) := by positivity
  have e2 : pev dP q ^ (2 : ℝ) = pev dP q ^ 2 := by norm_cast
  rw [show HT q = (Real.log (pev wP q) - Real.log (pev dP q) * 2 - Real.log q - Real.log (Real.sqrt (2 * Real.pi))) + (q ^ 2 - AT q ^ 2) / 2 by
    rw [HT]; ring]
  rw [Real.exp_add, Real.exp_sub, Real.exp_sub, Real.exp_sub, Real.exp_log hw, Real.exp_log hq, Real.exp_log hs, Real.exp_mul, Real.exp_log hd, e2]
  field_simp

theorem exp_small : (1.2480843594 : ℝ) ≤ Real.exp 0.2216098634 ∧ Real.exp 0.2216098635 ≤ 1.2480843597 := by
  constructor
  · have := Real.sum_le_exp_of_nonneg (x := 0.2216098634) (by norm_num) 9
    refine le_trans ?_ this
    norm_num [Finset.sum_range_succ, Nat.factorial]
  · have := Real.exp_bound' (x := 0.2216098635) (by norm_num) (by norm_num) (n := 9) (by norm_num)
    refine this.trans ?_
    norm_num [Finset.sum_range_succ, Nat.factorial]

theorem HT_start : |HT 2.727| ≤ 1.9e-7 := by
  have hx : AT 2.727 = 1.97250378572736 + (AT 2.727 - 1.97250378572736) := by ring
  have hw : (1.1609767177 : ℝ) ≤ pev wP 2.727 / pev dP 2.727 ^ 2 ∧ pev wP 2.727 / pev dP 2.727 ^ 2 ≤ 1.1609767178 := by
    rw [pev_wP]
    simp only [pev, pder, pderAux, cP, dP]
    norm_num
  have hξ : 8 * 0.2216098634 ≤ (2.727 ^ 2 - AT 2.727 ^ 2) / 2 ∧ (2.727 ^ 2 - AT 2.727 ^ 2) / 2 ≤ 8 * 0.2216098635 := by
    simp only [AT, pev, cP, dP]
    norm_num
  obtain ⟨s1, s2⟩ := sqrt2pi_bounds
  obtain ⟨x1, x2⟩ := exp_small
  have hs : 0 < Real.sqrt (2 * Real.pi) := by positivity
  have E1 : (1.2480843594 : ℝ) ^ 8 ≤ Real.exp ((2.727 ^ 2 - AT 2.727 ^ 2) / 2) := by
    calc (1.2480843594 : ℝ) ^ 8 ≤ Real.exp 0.2216098634 ^ 8 := pow_le_pow_left₀ (by norm_num) x1 8
      _ = Real.exp (8 * 0.2216098634) := by rw [← Real.exp_nat_mul]; norm_num
      _ ≤ _ := Real.exp_le_exp.2 hξ.1
  have E2 : Real.exp ((2.727 ^ 2 - AT 2.727 ^ 2) / 2) ≤ (1.2480843597 : ℝ) ^ 8 := by
    calc _ ≤ Real.exp (8 * 0.2216098635) := Real.exp_le_exp.2 hξ.2
      _ = Real.exp 0.2216098635 ^ 8 := by rw [← Real.exp_nat_mul]; norm_num
      _ ≤ _ := pow_le_pow_left₀ (Real.exp_pos _).le x2 8
  have hH := exp_HT (q := 2.727) le_rfl (by norm_num)
  generalize pev wP 2.727 / pev dP 2.727 ^ 2 = w at hw hH
  generalize Real.exp ((2.727 ^ 2 - AT 2.727 ^ 2) / 2) = t at E1 E2 hH
  generalize Real.sqrt (2 * Real.pi) = s at s1 s2 hs hH
  have L1 : 1 - 1.8e-7 ≤ Real.exp (HT 2.727) := by
    rw [hH, div_mul_eq_mul_div, le_div_iff₀ (by positivity)]
    have h1 : (1.1609767177 : ℝ) * 1.2480843594 ^ 8 ≤ w * t := mul_le_mul hw.1 E1 (by positivity) (le_trans (by norm_num) hw.1)
    refine le_trans ?_ h1
    norm_num at s2 ⊢
    linarith
  have L2 : Real.exp (HT 2.727) ≤ 1 + 1.8e-7 := by
    rw [hH, div_mul_eq_mul_div, div_le_iff₀ (by positivity)]
    have h1 : w * t ≤ (1.1609767178 : ℝ) * 1.2480843597 ^ 8 := mul_le_mul hw.2 E2 (le_trans (by positivity) E1) (by norm_num)
    refine h1.trans ?_
    norm_num at s1 ⊢
    linarith
  have e : HT 2.727 = Real.log (Real.exp (HT 2.727)) := (Real.log_exp _).symm
  rw [abs_le]
  constructor
  · have h1 := Real.one_sub_inv_le_log_of_pos (Real.exp_pos (HT 2.727))
    rw [← e] at h1
    have h2 : (Real.exp (HT 2.727))⁻¹ ≤ 1 + 1.9e-7 := by
      rw [inv_le_comm₀ (Real.exp_pos _) (by norm_num)]
      refine le_trans ?_ L1
      norm_num
    linarith
  · have h1 := Real.log_le_sub_one_of_pos (Real.exp_pos (HT 2.727))
    rw [← e] at h1
    norm_num at L2 h1 ⊢
    linarith

theorem HT_bound {q : ℝ} (h0 : 2.727 ≤ q) (h1 : q ≤ 39.6) : |HT q| ≤ 7e-6 := by
  have hder : ∀ x : ℝ, 2.727 ≤ x → x ≤ 39.6 → HasDerivAt HT (pev numT x / pev denT x) x ∧
      pev numT x / pev denT x * pev denTL x = pev numTL x := by
    intro x h0 h1
    have hx : 0 < x := lt_of_lt_of_le (by norm_num) h0
    have hd := dP_pos hx.le
    have hw := wP_pos h0 h1
    refine ⟨hasDerivAt_HT h0 h1, ?_⟩
    rw [numTL_eq, denTL_eq, div_mul_cancel₀]
    rw [pev_denT]; positivity
  have hst := abs_le.1 HT_start
  have e0 : (2727000 : ℝ) / 1000000 = 2.727 := by norm_num
  obtain ⟨⟨_, A1⟩, A2, A3⟩ := chain_bound (F := HT) (F' := fun x => pev numT x / pev denT x) (by decide) (by decide) (by decide)
    piecesT1 _ _ _ chainT1 (fun x h0 h1 => hder x (by push_cast at h0; norm_num at h0 ⊢; linarith) (by push_cast at h1; norm_num at h1 ⊢; linarith))
    (by push_cast; rw [e0]; norm_num at hst ⊢; linarith) (by push_cast; rw [e0]; norm_num at hst ⊢; linarith)
  obtain ⟨⟨_, B1⟩, _⟩ := chain_bound (F := HT) (F' := fun x => pev numT x / pev denT x) (by decide) (by decide) (by decide)
    piecesT2 _ _ _ chainT2 (fun x h0 h1 => hder x (by push_cast at h0; norm_num at h0 ⊢; linarith) (by push_cast at h1; norm_num at h1 ⊢; linarith))
    A2 A3
  rcases le_total q 36 with h | h
  · have := A1 q (by push_cast; norm_num at h0 ⊢; linarith) (by push_cast; norm_num at h ⊢; linarith)
    push_cast at this
    rw [abs_le]
    constructor <;> norm_num at this ⊢ <;> linarith
  · have := B1 q (by push_cast; norm_num at h ⊢; linarith) (by push_cast; norm_num at h1 ⊢; linarith)
    push_cast at this
    rw [abs_le]
    constructor <;> norm_num at this ⊢ <;> linarith

theorem phi_AT {q : ℝ} (h0 : 2.727 ≤ q) (h1 : q ≤ 39.6) :
    phiR (AT q) * (pev wP q / pev dP q ^ 2) = Real.exp (HT q) * (q * Real.exp (-q ^ 2 / 2)) := by
  have hq : 0 < q := lt_of_lt_of_le (by norm_num) h0
  rw [exp_HT h0 h1, phiR]
  have hs : 0 < Real.sqrt (2 * Real.pi) := by positivity
  have e : Real.exp (-AT q * AT q / 2) = Real.exp ((q ^ 2 - AT q ^ 2) / 2) * Real.exp (-q ^ 2 / 2) := by
    rw [← Real.exp_add]; congr 1; ring
  rw [e]
  field_simp

theorem AT_mono {x y : ℝ} (hx : 2.727 ≤ x) (hxy : x ≤ y) (hy : y ≤ 39.6) : AT x ≤ AT y := by
  have hmono : MonotoneOn AT (Icc 2.727 39.6) := by
    have pos : ∀ x : ℝ, 2.727 ≤ x → 0 ≤ x := fun x h => le_trans (by norm_num) h
    refine monotoneOn_of_deriv_nonneg (convex_Icc _ _) (fun x hx => (hasDerivAt_AT (pos x hx.1)).continuousAt.continuousWithinAt)
      (fun x hx => ?_) (fun x hx => ?_)
    · rw [interior_Icc] at hx
      exact (hasDerivAt_AT (pos x hx.1.le)).differentiableAt.differentiableWithinAt
    · rw [interior_Icc] at hx
      rw [(hasDerivAt_AT (pos x hx.1.le)).deriv]
      have := wP_pos hx.1.le hx.2.le
      positivity
  exact hmono ⟨hx, hxy.trans hy⟩ ⟨hx.trans hxy, hy⟩ hxy

theorem AT_bounds {q : ℝ} (h0 : 2.727 ≤ q) (h1 : q ≤ 39.6) : 1.97 ≤ AT q ∧ AT q ≤ 39.6 := by
  constructor
  · refine le_trans ?_ (AT_mono le_rfl h0 h1)
    simp only [AT, pev, cP, dP]; norm_num
  · refine (AT_mono h0 h1 le_rfl).trans ?_
    simp only [AT, pev, cP, dP]; norm_num
theorem AT_end : 39.4 ≤ AT 39.6 := by
  simp only [AT, pev, cP, dP]; norm_num

theorem hasDerivAt_PhiAT (k : ℝ) {q : ℝ} (h0 : 2.727 ≤ q) (h1 : q ≤ 39.6) :
    HasDerivAt (fun q => PhiR (-AT q) - k * Real.exp (-q ^ 2 / 2)) ((k - Real.exp (HT q)) * (q * Real.exp (-q ^ 2 / 2))) q := by
  have hq : 0 ≤ q := le_trans (by norm_num) h0
  have d1 := (hasDerivAt_PhiR (-AT q)).comp q (hasDerivAt_AT hq).neg
  have d2 : HasDerivAt (fun q : ℝ => -q ^ 2 / 2) (-q) q := by
    have := ((hasDerivAt_pow 2 q).neg).div_const 2
    refine this.congr_deriv ?_
    push_cast; ring
  have d3 := (d2.exp).const_mul k
  refine (d1.sub d3).congr_deriv ?_
  have e : phiR (-AT q) = phiR (AT q) := by rw [phiR, phiR]; ring_nf
  have := phi_AT h0 h1
  rw [e]
  linear_combination -this

end Trng.Acklam
