import Verif.Proofs.TemmePoly
import Verif.Proofs.InvGammaEnds
import Verif.Proofs.Normal

/-! Temme's uniform asymptotic expansion of the incomplete Gamma functions: both functions are integrals over a Gaussian times a
slowly varying factor, and the expansion replaces this factor by a polynomial. -/
namespace Trng.Temme
open Set Filter Topology

/-! ### Comparison of functions by their derivatives -/

theorem sub_le_of_deriv {X Y X' Y' : ℝ → ℝ} {p q : ℝ} (hpq : p ≤ q) (hXc : ContinuousOn X (Icc p q)) (hYc : ContinuousOn Y (Icc p q))
    (hX : ∀ x ∈ Ioo p q, HasDerivAt X (X' x) x) (hY : ∀ x ∈ Ioo p q, HasDerivAt Y (Y' x) x)
    (h : ∀ x ∈ Ioo p q, -X' x ≤ -Y' x) : X p - X q ≤ Y p - Y q := by
  have hm : AntitoneOn (fun x => Y x - X x) (Icc p q) := by
    refine antitoneOn_of_deriv_nonpos (convex_Icc p q) (hYc.sub hXc) ?_ ?_
    · intro x hx
      rw [interior_Icc] at hx
      exact ((hY x hx).sub (hX x hx)).differentiableAt.differentiableWithinAt
    · intro x hx
      rw [interior_Icc] at hx
      have := (hY x hx).sub (hX x hx)
      rw [show (fun x => Y x - X x) = Y - X from rfl, this.deriv]
      have := h x hx
      linarith
  have := hm (left_mem_Icc.2 hpq) (right_mem_Icc.2 hpq) hpq
  simp only at this
  linarith

theorem abs_sub_le_of_deriv {X Y X' Y' : ℝ → ℝ} {p q : ℝ} (hpq : p ≤ q) (hXc : ContinuousOn X (Icc p q)) (hYc : ContinuousOn Y (Icc p q))
    (hX : ∀ x ∈ Ioo p q, HasDerivAt X (X' x) x) (hY : ∀ x ∈ Ioo p q, HasDerivAt Y (Y' x) x)
    (h : ∀ x ∈ Ioo p q, |X' x| ≤ -Y' x) : |X p - X q| ≤ Y p - Y q := by
  rw [abs_le]
  have h1 := sub_le_of_deriv hpq hXc hYc hX hY (fun x hx => by have := neg_le_abs (X' x); have := h x hx; linarith)
  have h2 := sub_le_of_deriv (X := fun x => -X x) (X' := fun x => -X' x) hpq hXc.neg hYc (fun x hx => (hX x hx).neg) hY
    (fun x hx => by have := le_abs_self (X' x); have := h x hx; simp only [neg_neg]; linarith)
  constructor <;> linarith

theorem nonneg_of_damped {Z Z' : ℝ → ℝ} {b : ℝ} (h0 : 0 ≤ Z 0) (hc : ContinuousOn Z (Icc 0 b)) (hd : ∀ x ∈ Ioo 0 b, HasDerivAt Z (Z' x) x)
    (h : ∀ x ∈ Ioo 0 b, Z x < 0 → 0 ≤ Z' x) : ∀ x ∈ Icc 0 b, 0 ≤ Z x := by
  intro c hcb
  by_contra hneg
  push Not at hneg
  have hsub : Icc 0 c ⊆ Icc 0 b := Icc_subset_Icc_right hcb.2
  have hcc : ContinuousOn Z (Icc 0 c) := hc.mono hsub
  obtain ⟨A, hA⟩ : ∃ A, A = Icc 0 c ∩ Z ⁻¹' Ici 0 := ⟨_, rfl⟩
  have hcl : IsClosed A := by rw [hA]; exact hcc.preimage_isClosed_of_isClosed isClosed_Icc isClosed_Ici
  have hcomp : IsCompact A := isCompact_Icc.of_isClosed_subset hcl (by rw [hA]; exact inter_subset_left)
  have hne : A.Nonempty := ⟨0, by rw [hA]; exact ⟨left_mem_Icc.2 hcb.1, h0⟩⟩
  have hτ := hcomp.sSup_mem hne
  obtain ⟨τ, hτe⟩ : ∃ τ, τ = sSup A := ⟨_, rfl⟩
  rw [← hτe] at hτ
  rw [hA] at hτ
  obtain ⟨⟨hτ0, hτc⟩, hZτ⟩ := hτ
  have hZτ' : 0 ≤ Z τ := hZτ
  have hltneg : ∀ x ∈ Ioc τ c, Z x < 0 := by
    intro x hx
    by_contra hx2
    push Not at hx2
    have : x ≤ sSup A := le_csSup hcomp.bddAbove (by rw [hA]; exact ⟨⟨hτ0.trans hx.1.le, hx.2⟩, hx2⟩)
    rw [← hτe] at this
    exact absurd hx.1 (not_lt.2 this)
  have hm : MonotoneOn Z (Icc τ c) := by
    refine monotoneOn_of_deriv_nonneg (convex_Icc τ c) (hcc.mono (Icc_subset_Icc_left hτ0)) ?_ ?_
    · intro x hx
      rw [interior_Icc] at hx
      exact (hd x ⟨hτ0.trans_lt hx.1, hx.2.trans_le hcb.2⟩).differentiableAt.differentiableWithinAt
    · intro x hx
      rw [interior_Icc] at hx
      have hx' : x ∈ Ioo 0 b := ⟨hτ0.trans_lt hx.1, hx.2.trans_le hcb.2⟩
      rw [(hd x hx').deriv]
      exact h x hx' (hltneg x ⟨hx.1, hx.2.le⟩)
  have := hm (left_mem_Icc.2 hτc) (right_mem_Icc.2 hτc) hτc
  linarith

/-! ### The variables

With `x = a exp(y)` the integrand `t^(a-1) exp(-t)` becomes `exp(-a hh(y))`, and the expansion is in `±tt`, the square root of `2 hh`.
The two signs of `y` are treated together: `y = e z` with `e = ±1` and `z ≥ 0`. -/

/-- a sign -/
def Sign (e : ℝ) : Prop := e = 1 ∨ e = -1
theorem Sign.sq {e : ℝ} (h : Sign e) : e * e = 1 := by rcases h with rfl | rfl <;> norm_num
theorem Sign.abs {e : ℝ} (h : Sign e) : |e| = 1 := by rcases h with rfl | rfl <;> norm_num

noncomputable def hh (y : ℝ) : ℝ := Real.exp y - 1 - y
noncomputable def tt (e z : ℝ) : ℝ := Real.sqrt (2 * hh (e * z))
noncomputable def uu (e z : ℝ) : ℝ := e * (Real.exp (e * z) - 1)

variable {e z : ℝ}

theorem hh_nonneg (y : ℝ) : 0 ≤ hh y := by rw [hh]; linarith [Real.add_one_le_exp y]
theorem hh_pos {y : ℝ} (h : y ≠ 0) : 0 < hh y := by rw [hh]; linarith [Real.add_one_lt_exp h]
theorem tt_nonneg (e z : ℝ) : 0 ≤ tt e z := Real.sqrt_nonneg _
theorem tt_sq (e z : ℝ) : tt e z ^ 2 = 2 * hh (e * z) := Real.sq_sqrt (by have := hh_nonneg (e * z); positivity)
theorem tt_zero (e : ℝ) : tt e 0 = 0 := by simp [tt, hh]
theorem tt_pos (h : Sign e) (hz : 0 < z) : 0 < tt e z := by
  refine Real.sqrt_pos.2 (mul_pos two_pos (hh_pos (mul_ne_zero ?_ hz.ne')))
  rcases h with rfl | rfl <;> norm_num
theorem uu_nonneg (h : Sign e) (hz : 0 ≤ z) : 0 ≤ uu e z := by
  rcases h with rfl | rfl
  · rw [uu]; have := Real.add_one_le_exp (1 * z); linarith
  · rw [uu]
    have : Real.exp (-1 * z) ≤ 1 := Real.exp_le_one_iff.2 (by linarith)
    linarith

theorem hasDerivAt_hh (e z : ℝ) : HasDerivAt (fun z => hh (e * z)) (uu e z) z := by
  have h1 : HasDerivAt (fun z : ℝ => e * z) e z := by simpa using (hasDerivAt_id z).const_mul e
  have := (h1.exp.sub_const 1).sub h1
  exact hd_congr this (fun x => rfl) (by rw [uu]; ring)

theorem hasDerivAt_tt (h : Sign e) (hz : 0 < z) : HasDerivAt (tt e) (uu e z / tt e z) z := by
  have ht := tt_pos h hz
  have hpos : 2 * hh (e * z) ≠ 0 := by
    have := tt_sq e z
    rw [← this]; positivity
  have := ((hasDerivAt_hh e z).const_mul 2).sqrt hpos
  refine hd_congr this (fun x => rfl) ?_
  rw [show Real.sqrt (2 * hh (e * z)) = tt e z from rfl]
  field_simp

theorem hasDerivAt_uu (h : Sign e) (z : ℝ) : HasDerivAt (uu e) (1 + e * uu e z) z := by
  have h1 : HasDerivAt (fun z : ℝ => e * z) e z := by simpa using (hasDerivAt_id z).const_mul e
  have := (h1.exp.sub_const 1).const_mul e
  refine hd_congr this (fun x => rfl) ?_
  rw [uu, ← mul_assoc, h.sq, mul_comm (Real.exp (e * z)) e, ← mul_assoc, h.sq]; ring

theorem continuous_hh : Continuous hh := by unfold hh; fun_prop
theorem continuous_tt (e : ℝ) : Continuous (tt e) := by
  unfold tt
  have := continuous_hh
  fun_prop
theorem continuous_uu (e : ℝ) : Continuous (uu e) := by unfold uu; fun_prop

theorem uu_pos (h : Sign e) (hz : 0 < z) : 0 < uu e z := by
  rcases h with rfl | rfl
  · rw [uu]; have := Real.add_one_le_exp (1 * z); linarith
  · rw [uu]
    have : Real.exp (-1 * z) < 1 := Real.exp_lt_one_iff.2 (by linarith)
    linarith

theorem tt_strictMono (h : Sign e) : StrictMonoOn (tt e) (Ici 0) := by
  refine strictMonoOn_of_deriv_pos (convex_Ici 0) (continuous_tt e).continuousOn fun x hx => ?_
  rw [interior_Ici] at hx
  rw [(hasDerivAt_tt h hx).deriv]
  exact div_pos (uu_pos h hx) (tt_pos h hx)

theorem tt_mono (h : Sign e) {z z' : ℝ} (hz : 0 ≤ z) (hzz : z ≤ z') : tt e z ≤ tt e z' :=
  (tt_strictMono h).monotoneOn hz (hz.trans hzz) hzz

theorem tt_ge (h : Sign e) (hz : 0 ≤ z) : Real.sqrt (2 * (z - 1)) ≤ tt e z := by
  apply Real.sqrt_le_sqrt
  rcases h with rfl | rfl
  · have := Real.quadratic_le_exp_of_nonneg hz
    rw [one_mul, hh]; nlinarith [sq_nonneg (z - 1)]
  · rw [hh]; have := Real.exp_pos (-1 * z); linarith

theorem tendsto_tt (h : Sign e) : Tendsto (tt e) atTop atTop := by
  have h1 : Tendsto (fun z : ℝ => Real.sqrt (2 * (z - 1))) atTop atTop := by
    refine Real.tendsto_sqrt_atTop.comp ?_
    exact (tendsto_id.atTop_add (tendsto_const_nhds (x := (-1 : ℝ)))).const_mul_atTop two_pos
  refine tendsto_atTop_mono' _ ?_ h1
  filter_upwards [eventually_ge_atTop 0] with z hz using tt_ge h hz

theorem exists_tt (h : Sign e) {s : ℝ} (hs : 0 ≤ s) : ∃ z, 0 ≤ z ∧ tt e z = s := by
  obtain ⟨Z, hZ0, hZ⟩ := ((eventually_ge_atTop (0 : ℝ)).and ((tendsto_tt h).eventually_ge_atTop s)).exists
  obtain ⟨z, hz, hzs⟩ := intermediate_value_Icc hZ0 (continuous_tt e).continuousOn ⟨by rw [tt_zero]; exact hs, hZ⟩
  exact ⟨z, hz.1, hzs⟩

/-- The slowly varying factor `tt/uu` is at most `1 + tt`. -/
theorem tt_le (h : Sign e) (hz : 0 ≤ z) : tt e z ≤ uu e z * (1 + tt e z) := by
  have ht := tt_nonneg e z
  have hu := uu_nonneg h hz
  have hsq := tt_sq e z
  rcases h with rfl | rfl
  · have : tt 1 z ≤ uu 1 z := by
      refine le_of_sq_le_sq ?_ hu
      rw [hsq, hh, uu, one_mul, one_mul]
      have hw : 0 ≤ Real.exp z - 1 := by have := Real.add_one_le_exp z; linarith
      have h1 := Real.le_log_one_add_of_nonneg hw
      rw [show 1 + (Real.exp z - 1) = Real.exp z by ring, Real.log_exp, div_le_iff₀ (by linarith)] at h1
      obtain ⟨w, hw'⟩ : ∃ w, w = Real.exp z - 1 := ⟨_, rfl⟩
      rw [show Real.exp z = w + 1 by rw [hw']; ring] at h1 ⊢
      rw [← hw'] at hw
      have h2 : 0 ≤ w ^ 3 := by positivity
      nlinarith
    nlinarith
  · -- `tt exp(-z) ≤ 1 - exp(-z)`
    have h1 : tt (-1) z ≤ z := by
      refine le_of_sq_le_sq ?_ hz
      rw [hsq, hh]
      have h3 : Real.exp (-z) ≤ 1 - z + z ^ 2 / 2 := by
        have h4 := Real.quadratic_le_exp_of_nonneg hz
        have h5 : Real.exp (-z) * Real.exp z = 1 := by rw [← Real.exp_add]; simp
        have h6 : 0 < 1 - z + z ^ 2 / 2 := by nlinarith [sq_nonneg (z - 1)]
        have h7 : 1 ≤ (1 - z + z ^ 2 / 2) * (1 + z + z ^ 2 / 2) := by nlinarith [sq_nonneg (z ^ 2)]
        have h8 : 1 ≤ (1 - z + z ^ 2 / 2) * Real.exp z := h7.trans (mul_le_mul_of_nonneg_left h4 h6.le)
        have := Real.exp_pos z
        by_contra hc
        push Not at hc
        have := mul_lt_mul_of_pos_right hc this
        linarith
      rw [neg_one_mul]; nlinarith
    have h2 : z ≤ Real.exp z - 1 := by have := Real.add_one_le_exp z; linarith
    have h5 : Real.exp (-z) * Real.exp z = 1 := by rw [← Real.exp_add]; simp
    have h6 := Real.exp_pos (-z)
    have h7 : tt (-1) z * Real.exp (-z) ≤ 1 - Real.exp (-z) := by
      have := mul_le_mul_of_nonneg_right (h1.trans h2) h6.le
      nlinarith
    have h8 : uu (-1) z = 1 - Real.exp (-z) := by rw [uu, neg_one_mul z]; ring
    rw [h8]
    nlinarith

/-! ### The residual of a polynomial -/

variable {F : List ℚ}

/-- antiderivative of `F + x` -/
def pP (F : List ℚ) : List ℚ := padd (0 :: pintAux 0 F) [0, 0, 1 / 2]
/-- residual -/
def rho (F : List ℚ) : List ℚ := padd (pmul F (pP F)) [0, -1]
def pR (F : List ℚ) : List ℚ := (pabs (rho F)).tail
def pV (F : List ℚ) : List ℚ := pintAux 0 (padd (pR F) (0 :: pR F))
/-- bound of the relative deviation of `F` from the slowly varying factor -/
def pE (F : List ℚ) : List ℚ := padd (pR F) (psc 3 (pV F))

theorem hasDerivAt_pP (F : List ℚ) (x : ℝ) : HasDerivAt (evr (pP F)) (evr F x + x) x := by
  have h2 : HasDerivAt (fun x : ℝ => x ^ 2 / 2) x x := hd_congr ((hasDerivAt_pow 2 x).div_const 2) (fun _ => rfl) (by push_cast; ring)
  refine hd_congr ((hasDerivAt_pint F x).add h2) (fun x => ?_) rfl
  rw [pP, evr_padd]
  simp only [Pi.add_apply, evr_cons, evr_nil]; push_cast; ring

theorem evr_rho (F : List ℚ) (x : ℝ) : evr F x * evr (pP F) x = x + evr (rho F) x := by
  rw [rho, evr_padd, evr_pmul]
  simp only [evr_cons, evr_nil]; push_cast; ring

theorem nonneg_pR (F : List ℚ) : nonneg (pR F) := fun c hc => nonneg_pabs (rho F) c (List.mem_of_mem_tail hc)
theorem nonneg_sum (F : List ℚ) : nonneg (padd (pR F) (0 :: pR F)) := nonneg_padd (nonneg_pR F) (nonneg_cons le_rfl (nonneg_pR F))
theorem nonneg_pV (F : List ℚ) : nonneg (pV F) := nonneg_pintAux 0 (nonneg_sum F)
theorem nonneg_pE (F : List ℚ) : nonneg (pE F) := nonneg_padd (nonneg_pR F) (nonneg_psc (by norm_num) (nonneg_pV F))

theorem abs_rho_le (h0 : (rho F).head? = some 0) (x : ℝ) : |evr (rho F) x| ≤ |x| * evr (pR F) |x| := by
  refine (abs_evr_le _ _).trans_eq ?_
  cases hr : rho F with
  | nil => rw [hr] at h0; simp at h0
  | cons c l =>
    rw [hr] at h0
    have : c = 0 := by simpa using h0
    subst this
    simp [pabs, pR, hr]

theorem hasDerivAt_pV (F : List ℚ) (x : ℝ) : HasDerivAt (fun x => x * evr (pV F) x) ((1 + x) * evr (pR F) x) x := by
  refine hd_congr (hasDerivAt_pint (padd (pR F) (0 :: pR F)) x) (fun x => ?_) ?_
  · simp [pV]
  · rw [evr_padd]; simp only [evr_cons, Rat.cast_zero]; ring

theorem deviation {r : ℝ} (h : Sign e) (h0 : (rho F).head? = some 0) (hF : ∀ s : ℝ, |s| ≤ r → 0 ≤ evr F s ∧ evr F s ≤ 3) (hz : 0 < z)
    (hr : tt e z ≤ r) : |evr F (e * tt e z) * uu e z / tt e z - 1| ≤ evr (pE F) (tt e z) := by
  -- `v` is the deviation of the antiderivative
  obtain ⟨v, hv⟩ : ∃ v : ℝ → ℝ, v = fun z => evr (pP F) (e * tt e z) - e * uu e z := ⟨_, rfl⟩
  obtain ⟨V, hV⟩ : ∃ V : ℝ → ℝ, V = fun z => tt e z * evr (pV F) (tt e z) := ⟨_, rfl⟩
  have habs : ∀ x : ℝ, |e * tt e x| = tt e x := fun x => by rw [abs_mul, h.abs, one_mul, abs_of_nonneg (tt_nonneg e x)]
  have htr : ∀ x, 0 ≤ x → x ≤ z → tt e x ≤ r := fun x h1 h2 => (tt_mono h h1 h2).trans hr
  have key : ∀ x, evr F (e * tt e x) * uu e x = tt e x + e * (evr (rho F) (e * tt e x) - evr F (e * tt e x) * v x) := by
    intro x
    have := evr_rho F (e * tt e x)
    rw [hv]
    have h2 := h.sq
    linear_combination e * this + (-(evr F (e * tt e x) * uu e x) + tt e x) * h2
  have hvd : ∀ x, 0 < x → HasDerivAt v ((evr (rho F) (e * tt e x) - evr F (e * tt e x) * v x) / tt e x) x := by
    intro x hx
    have ht := tt_pos h hx
    have h1 := (hasDerivAt_pP F (e * tt e x)).comp x ((hasDerivAt_tt h hx).const_mul e)
    have h2 := h1.sub ((hasDerivAt_uu h x).const_mul e)
    rw [hv]
    refine hd_congr h2 (fun x => rfl) ?_
    have hk := key x
    rw [hv] at hk
    simp only at hk ⊢
    rw [div_eq_iff ht.ne']
    have h3 := h.sq
    field_simp
    linear_combination (-e) * hk + (-(evr (rho F) (e * tt e x) - evr F (e * tt e x) * (evr (pP F) (e * tt e x) - e * uu e x))) * h3
  have hVd : ∀ x, 0 < x → HasDerivAt V ((1 + tt e x) * evr (pR F) (tt e x) * (uu e x / tt e x)) x := by
    intro x hx
    rw [hV]
    exact hd_congr ((hasDerivAt_pV F (tt e x)).comp x (hasDerivAt_tt h hx)) (fun x => rfl) rfl
  have hct := continuous_tt e
  have hcu := continuous_uu e
  have hvc : Continuous v := by rw [hv]; have := continuous_evr (pP F); fun_prop
  have hVc : Continuous V := by rw [hV]; have := continuous_evr (pV F); fun_prop
  have hv0 : v 0 = 0 := by rw [hv]; simp [tt_zero, uu, pP, evr_padd]
  have hV0 : V 0 = 0 := by rw [hV]; simp [tt_zero]
  have hVn : ∀ x, 0 ≤ V x := fun x => by
    rw [hV]; exact mul_nonneg (tt_nonneg e x) (evr_nonneg (nonneg_pV F) (tt_nonneg e x))
  have hrho : ∀ x, 0 < x → |evr (rho F) (e * tt e x) / tt e x| ≤ (1 + tt e x) * evr (pR F) (tt e x) * (uu e x / tt e x) := by
    intro x hx
    have ht := tt_pos h hx
    have h1 := abs_rho_le h0 (e * tt e x)
    rw [habs] at h1
    rw [abs_div, abs_of_pos ht, ← mul_div_assoc]
    refine div_le_div_of_nonneg_right (h1.trans ?_) ht.le
    have h2 := mul_le_mul_of_nonneg_right (tt_le h hx.le) (evr_nonneg (nonneg_pR F) ht.le)
    linarith
  have hle : ∀ x ∈ Icc 0 z, |v x| ≤ V x := by
    have h1 := nonneg_of_damped (Z := fun x => V x - v x) (b := z) (by rw [hv0, hV0]; simp) (hVc.sub hvc).continuousOn
      (fun x hx => (hVd x hx.1).sub (hvd x hx.1)) (fun x hx hneg => by
        have h2 := le_trans (le_abs_self _) (hrho x hx.1)
        have h3 := hVn x
        have h4 := mul_nonneg (hF (e * tt e x) (by rw [habs]; exact htr x hx.1.le hx.2.le)).1 (show 0 ≤ v x by linarith)
        have h5 := div_nonneg h4 (tt_nonneg e x)
        rw [sub_div]; linarith)
    have h2 := nonneg_of_damped (Z := fun x => V x + v x) (b := z) (by rw [hv0, hV0]; simp) (hVc.add hvc).continuousOn
      (fun x hx => (hVd x hx.1).add (hvd x hx.1)) (fun x hx hneg => by
        have h2 := le_trans (neg_abs_le _) (le_refl (evr (rho F) (e * tt e x) / tt e x))
        have h2' := hrho x hx.1
        have h3 := hVn x
        have h4 := mul_nonneg (hF (e * tt e x) (by rw [habs]; exact htr x hx.1.le hx.2.le)).1 (show 0 ≤ -v x by linarith)
        have h5 := div_nonneg h4 (tt_nonneg e x)
        rw [mul_neg, neg_div] at h5
        rw [sub_div]; linarith)
    intro x hx
    rw [abs_le]
    have := h1 x hx
    have := h2 x hx
    constructor <;> linarith
  have ht := tt_pos h hz
  rw [key z, add_div, div_self ht.ne', add_sub_cancel_left, abs_div, abs_mul, h.abs, one_mul, abs_of_pos ht, div_le_iff₀ ht]
  have h1 := abs_rho_le h0 (e * tt e z)
  rw [habs] at h1
  have h2 := hle z ⟨hz.le, le_rfl⟩
  have h3 := hF (e * tt e z) (by rw [habs]; exact hr)
  have h4 : |evr F (e * tt e z) * v z| ≤ 3 * V z := by
    rw [abs_mul, abs_of_nonneg h3.1]
    exact mul_le_mul h3.2 h2 (abs_nonneg _) (by norm_num)
  have h5 := abs_sub (evr (rho F) (e * tt e z)) (evr F (e * tt e z) * v z)
  rw [pE, evr_padd, evr_psc]
  rw [hV] at h4
  simp only at h4
  push_cast
  linarith

end Trng.Temme
