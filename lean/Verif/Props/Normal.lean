import Verif.Spec.Normal
import Verif.Proofs.Halley

/-! C60-C63 for the normal, lognormal, truncated normal and Maxwell distributions; C73: their samples; C74: the normal
distribution function and its inverse.  `inv` is any function in the place of `inv_Phi`; the code's is `invPhi wide`. -/
namespace Trng
open XR MeasureTheory Filter Topology Set
open Classical

theorem stdNormal_eq (y : ℝ) : Spec.stdNormal y = PhiR y := by
  have h := (normal_data (m := 0) (s := 1) one_pos).integral_Iic y
  simp only [sub_zero, div_one] at h
  rw [← h, Spec.stdNormal]
  congr 1
  ext t
  rw [phiR, show -t * t / 2 = -t ^ 2 / 2 by ring]; ring

/-! ### C60, C61: density and distribution function -/

theorem C60_normal (inv : XR → XR) {mu sigma : ℝ} (h : 0 < sigma) : Spec.HasDensity (normalDist inv (fin mu) (fin sigma)) ∅ :=
  (normal_data h).hasDensity
theorem C60_lognormal (inv : XR → XR) {mu sigma : ℝ} (h : 0 < sigma) : Spec.HasDensity (lognormalDist inv (fin mu) (fin sigma)) {0} :=
  (lognormal_data h).hasDensity

/-- truncated_normal_dist: inside the support. -/
theorem C60_truncated_normal_partial (inv : XR → XR) {mu sigma : ℝ} (hs : 0 < sigma) {a b : XR} (ha : a = ninf ∨ ∃ x, a = fin x)
    (hb : b = pinf ∨ ∃ x, b = fin x) (hab : a < b) : ∃ F f : ℝ → ℝ,
    (∀ x, a < fin x → fin x < b → (truncatedNormalDist inv (fin mu) (fin sigma) a b).cdf (fin x) = fin (F x)) ∧
    (∀ x, a < fin x → fin x < b → (truncatedNormalDist inv (fin mu) (fin sigma) a b).pdf (fin x) = fin (f x)) ∧
    (∀ x, a < fin x → fin x < b → 0 ≤ f x ∧ HasDerivAt F (f x) x) ∧ (∀ x, fin x ≤ a ∨ b ≤ fin x → f x = 0) ∧
    (∀ x, IntegrableOn f (Iic x)) ∧ (∀ x, ∫ t in Iic x, f t = F x) := by
  have h := truncated_data (m := mu) hs ha hb hab
  have nl : ∀ x, a < fin x → ¬ fin x ≤ a := fun x h hc => (not_lt_iff_le_lower ha x).2 hc h
  have nu : ∀ x, fin x < b → ¬ b ≤ fin x := fun x h hc => (not_lt_iff_le_upper hb x).2 hc h
  have nB : ∀ x, a < fin x → fin x < b → x ∉ endPoints a b := by
    intro x h1 h2 hx
    rcases hx with e | e
    · rw [e] at h1; exact lt_irrefl x h1
    · rw [e] at h2; exact lt_irrefl x h2
  refine ⟨_, _, fun x h1 h2 => ?_, fun x h1 h2 => ?_, fun x h1 h2 => ⟨h.nonneg x (nB x h1 h2), h.deriv x (nB x h1 h2)⟩, fun x hx => if_pos hx,
    h.integrable_Iic, h.integral_Iic⟩
  · rw [if_neg (nl x h1), if_neg (nu x h2)]
    exact truncated_cdf inv hs ha hb hab x
  · rw [if_neg (not_or.2 ⟨nl x h1, nu x h2⟩)]
    exact truncated_pdf inv hs ha hb hab x

/-- maxwell_dist: on the support. -/
theorem C60_maxwell_partial (digits : Nat) (eps : XR) {theta : ℝ} (ht : 0 < theta) : ∃ F f : ℝ → ℝ,
    (∀ x, 0 ≤ x → (maxwellDist digits eps (fin theta)).cdf (fin x) = fin (F x)) ∧
    (∀ x, 0 ≤ x → (maxwellDist digits eps (fin theta)).pdf (fin x) = fin (f x)) ∧
    (∀ x, 0 ≤ f x ∧ HasDerivAt F (f x) x) ∧ (∀ x, x < 0 → f x = 0) ∧
    (∀ x, IntegrableOn f (Iic x)) ∧ (∀ x, ∫ t in Iic x, f t = F x) := by
  have h := maxwell_data ht
  refine ⟨_, _, fun x hx => ?_, fun x hx => ?_, fun x => ⟨h.nonneg x (by simp), h.deriv x (by simp)⟩, fun x hx => if_pos hx.le,
    h.integrable_Iic, h.integral_Iic⟩
  · rw [show (maxwellDist digits eps (fin theta)).cdf (fin x) = _ from maxwell_cdf ht x, fin_inj]
    rcases eq_or_lt_of_le hx with e | e
    · rw [if_pos e.ge, ← e, maxwellF_zero]
    · rw [if_neg (not_le.2 e)]
  · rw [show (maxwellDist digits eps (fin theta)).pdf (fin x) = _ from maxwell_pdf ht x, fin_inj]
    rcases eq_or_lt_of_le hx with e | e
    · rw [if_pos e.ge, ← e]; simp [maxwellf]
    · rw [if_neg (not_le.2 e)]

/-- Outside the support the densities of truncated_normal_dist and maxwell_dist are positive. -/
theorem C60_truncated_normal_wrong (inv : XR → XR) {mu sigma : ℝ} (hs : 0 < sigma) {a b : ℝ} (hab : a < b) {x : ℝ} (_hx : x < a ∨ b < x) :
    ∃ p : ℝ, (truncatedNormalDist inv (fin mu) (fin sigma) (fin a) (fin b)).pdf (fin x) = fin p ∧ 0 < p := by
  have ha : LowerEnd (fin a) := Or.inr ⟨a, rfl⟩
  have hb : UpperEnd (fin b) := Or.inr ⟨b, rfl⟩
  have := tail_lt (m := mu) hs ha hb hab
  exact ⟨_, truncated_pdf inv hs ha hb hab x, div_pos (div_pos (phiR_pos _) hs) (by linarith)⟩
theorem C60_maxwell_wrong (digits : Nat) (eps : XR) {theta : ℝ} (ht : 0 < theta) {x : ℝ} (hx : x < 0) :
    ∃ p : ℝ, (maxwellDist digits eps (fin theta)).pdf (fin x) = fin p ∧ 0 < p :=
  ⟨_, maxwell_pdf ht x, maxwellf_pos ht hx.ne⟩

theorem C61_normal (inv : XR → XR) {mu sigma : ℝ} (h : 0 < sigma) : Spec.IsCdf (normalDist inv (fin mu) (fin sigma)) :=
  (normal_data h).isCdf (by simp [normalDist, ninf_div_fin h.le]) (by simp [normalDist, pinf_div_fin h.le])
theorem C61_lognormal (inv : XR → XR) {mu sigma : ℝ} (h : 0 < sigma) : Spec.IsCdf (lognormalDist inv (fin mu) (fin sigma)) := by
  refine (lognormal_data h).isCdf ?_ ?_
  · have e : ninf ≤ (0 : XR) := trivial
    simp only [lognormalDist, if_pos e]
  · have e : ¬ pinf ≤ (0 : XR) := id
    have hp : (0 : ℝ) < 1 / Real.sqrt 2 := by positivity
    simp only [lognormalDist, if_neg e, ln_pinf, fin_sub_pinf, oneOverSqrt2]
    rw [fin_mul_ninf, infSign_neg (by linarith), ninf_div_fin h.le, erfc_ninf]
    xr
    rw [fin_div (by norm_num)]; norm_num

/-- truncated_normal_dist: between the ends it is right, at the ends it is 0 and 1. -/
theorem C61_truncated_normal_partial (inv : XR → XR) {mu sigma : ℝ} (hs : 0 < sigma) {a b : XR} (ha : a = ninf ∨ ∃ x, a = fin x)
    (hb : b = pinf ∨ ∃ x, b = fin x) (hab : a < b) : ∃ F : ℝ → ℝ,
    (∀ x, a ≤ fin x → fin x ≤ b → (truncatedNormalDist inv (fin mu) (fin sigma) a b).cdf (fin x) = fin (F x)) ∧
    Monotone F ∧ (∀ x, 0 ≤ F x ∧ F x ≤ 1) ∧ (∀ x, fin x ≤ a → F x = 0) ∧ (∀ x, b ≤ fin x → F x = 1) ∧
    Tendsto F atBot (𝓝 0) ∧ Tendsto F atTop (𝓝 1) := by
  have h := truncated_data (m := mu) hs ha hb hab
  have ht := tail_lt (m := mu) hs ha hb hab
  refine ⟨_, fun x h1 h2 => ?_, h.monotone, h.range, h.below, h.above, h.tendsto_bot, h.tendsto_top⟩
  rw [truncated_cdf inv hs ha hb hab x, fin_inj]
  by_cases c1 : fin x ≤ a
  · rw [if_pos c1]
    rcases ha with rfl | ⟨y, rfl⟩
    · exact c1.elim
    · have e : x = y := le_antisymm c1 h1
      rw [e]; simp [tailA]
  rw [if_neg c1]
  by_cases c2 : b ≤ fin x
  · rw [if_pos c2]
    rcases hb with rfl | ⟨y, rfl⟩
    · exact c2.elim
    · have e : x = y := le_antisymm h2 c2
      rw [e]; exact div_self (by simp only [tailB] at ht ⊢; linarith)
  rw [if_neg c2]

/-- maxwell_dist: on the support. -/
theorem C61_maxwell_partial (digits : Nat) (eps : XR) {theta : ℝ} (ht : 0 < theta) : ∃ F : ℝ → ℝ,
    (∀ x, 0 ≤ x → (maxwellDist digits eps (fin theta)).cdf (fin x) = fin (F x)) ∧ Monotone F ∧ (∀ x, 0 ≤ F x ∧ F x ≤ 1) ∧
    (∀ x, x ≤ 0 → F x = 0) ∧ Tendsto F atBot (𝓝 0) ∧ Tendsto F atTop (𝓝 1) := by
  have h := maxwell_data ht
  refine ⟨_, fun x hx => ?_, h.monotone, h.range, fun x hx => if_pos hx, h.tendsto_bot, h.tendsto_top⟩
  rw [show (maxwellDist digits eps (fin theta)).cdf (fin x) = _ from maxwell_cdf ht x, fin_inj]
  rcases eq_or_lt_of_le hx with e | e
  · rw [if_pos e.ge, ← e, maxwellF_zero]
  · rw [if_neg (not_le.2 e)]

/-- C61 is false for truncated_normal_dist outside the support and for maxwell_dist below 0: below the support the
distribution function is negative, above it greater than 1. -/
theorem C61_truncated_normal_wrong (inv : XR → XR) {mu sigma : ℝ} (hs : 0 < sigma) {a b : ℝ} (hab : a < b) (x : ℝ) :
    ∃ p : ℝ, (truncatedNormalDist inv (fin mu) (fin sigma) (fin a) (fin b)).cdf (fin x) = fin p ∧ (x < a → p < 0) ∧ (b < x → 1 < p) := by
  have ha : LowerEnd (fin a) := Or.inr ⟨a, rfl⟩
  have hb : UpperEnd (fin b) := Or.inr ⟨b, rfl⟩
  have ht := tail_lt (m := mu) hs ha hb hab
  refine ⟨_, truncated_cdf inv hs ha hb hab x, fun hx => ?_, fun hx => ?_⟩
  · refine div_neg_of_neg_of_pos ?_ (by linarith)
    have : PhiR ((x - mu) / sigma) < tailA mu sigma (fin a) := (PhiR_scale_lt hs).2 hx
    linarith
  · rw [lt_div_iff₀ (by linarith)]
    have : tailB mu sigma (fin b) < PhiR ((x - mu) / sigma) := (PhiR_scale_lt hs).2 hx
    linarith
theorem C61_maxwell_wrong (digits : Nat) (eps : XR) {theta : ℝ} (ht : 0 < theta) {x : ℝ} (hx : x < 0) :
    ∃ p : ℝ, (maxwellDist digits eps (fin theta)).cdf (fin x) = fin p ∧ p < 0 := by
  refine ⟨_, maxwell_cdf ht x, ?_⟩
  have := maxwellF_pos ht (show 0 < -x by linarith)
  rw [maxwellF_neg] at this; linarith

example : Spec.IsCdf (normalDist (invPhi false) (fin 1) (fin 2)) := C61_normal _ (by norm_num)
example : ∃ p : ℝ, (truncatedNormalDist (invPhi false) (fin 0) (fin 1) (fin 0) (fin 1)).cdf (fin 2) = fin p ∧ 1 < p := by
  obtain ⟨p, h1, -, h2⟩ := C61_truncated_normal_wrong (invPhi false) (mu := 0) (sigma := 1) one_pos (a := 0) (b := 1) one_pos 2
  exact ⟨p, h1, h2 (by norm_num)⟩

/-! ### C73: inversion and samples -/

/-- normal_dist: icdf and the samples are as exact as inv_Phi. -/
theorem C73_normal {inv : XR → XR} {d : ℝ} (hd : 0 ≤ d) (hi : Spec.InvertsNormal inv d) {mu sigma : ℝ} (hs : 0 < sigma) :
    Spec.InverseWithin (normalDist inv (fin mu) (fin sigma)) d univ := by
  choose! g h1 h2 using hi
  simp only [stdNormal_eq] at h2
  have hv : ∀ u, 0 < u → u < 1 → (normalDist inv (fin mu) (fin sigma)).icdf (fin u) = fin (g u * sigma + mu) := by
    intro u h0 h3
    simp only [normalDist, h1 u h0 h3]; xr
  have hq : ∀ u, 0 < u → u < 1 → |PhiR ((g u * sigma + mu - mu) / sigma) - u| ≤ d := by
    intro u h0 h3
    rw [add_sub_cancel_right, mul_div_cancel_right₀ _ hs.ne']
    exact h2 u h0 h3
  refine ⟨fun u h0 h3 => ⟨_, _, hv u h0 h3, normal_cdf _ hs _, hq u h0 h3⟩, fun u hu => ⟨_, hv u hu.1 hu.2⟩, fun x _ => ⟨_, normal_cdf _ hs x, ?_⟩⟩
  have h := sampled_within (F := fun x => PhiR ((x - mu) / sigma)) (normal_data hs).monotone hd hq (x := x) (PhiR_lt_one _).le
  have e : {u : ℝ | u ∈ (normalDist inv (fin mu) (fin sigma)).deviate ∧ (normalDist inv (fin mu) (fin sigma)).draw (fin u) ≤ fin x}
      = {u : ℝ | u ∈ Ioo (0 : ℝ) 1 ∧ g u * sigma + mu ≤ x} := by
    ext u
    refine and_congr_right fun hu => ?_
    rw [show (normalDist inv (fin mu) (fin sigma)).draw (fin u) = _ from hv u hu.1 hu.2, fin_le]
  rw [e]; exact h

/-- lognormal_dist. -/
theorem C73_lognormal {inv : XR → XR} {d : ℝ} (hd : 0 ≤ d) (hi : Spec.InvertsNormal inv d) {mu sigma : ℝ} (hs : 0 < sigma) :
    Spec.InverseWithin (lognormalDist inv (fin mu) (fin sigma)) d univ ∧
    ∀ u ∈ (lognormalDist inv (fin mu) (fin sigma)).deviate, 0 < (lognormalDist inv (fin mu) (fin sigma)).draw (fin u) := by
  choose! g h1 h2 using hi
  simp only [stdNormal_eq] at h2
  have hv : ∀ u, 0 < u → u < 1 → (lognormalDist inv (fin mu) (fin sigma)).icdf (fin u) = fin (Real.exp (g u * sigma + mu)) := by
    intro u h0 h3
    obtain ⟨a, -, -, b, c⟩ := icdf_ok h0 h3
    simp only [lognormalDist, lognormalIcdf, if_neg a, if_neg b, if_neg c, h1 u h0 h3]; xr
  have hq : ∀ u, 0 < u → u < 1 → |(fun x => if x ≤ 0 then 0 else PhiR ((Real.log x - mu) / sigma)) (Real.exp (g u * sigma + mu)) - u| ≤ d := by
    intro u h0 h3
    simp only [if_neg (not_le.2 (Real.exp_pos (g u * sigma + mu)))]
    rw [Real.log_exp, add_sub_cancel_right, mul_div_cancel_right₀ _ hs.ne']
    exact h2 u h0 h3
  refine ⟨⟨fun u h0 h3 => ⟨_, _, hv u h0 h3, lognormal_cdf _ hs _, hq u h0 h3⟩, fun u hu => ⟨_, hv u hu.1 hu.2⟩,
    fun x _ => ⟨_, lognormal_cdf _ hs x, ?_⟩⟩, fun u hu => ?_⟩
  · have h := sampled_within (lognormal_data (m := mu) hs).monotone hd hq (x := x) ((lognormal_data (m := mu) hs).range x).2
    have e : {u : ℝ | u ∈ (lognormalDist inv (fin mu) (fin sigma)).deviate ∧ (lognormalDist inv (fin mu) (fin sigma)).draw (fin u) ≤ fin x}
        = {u : ℝ | u ∈ Ioo (0 : ℝ) 1 ∧ Real.exp (g u * sigma + mu) ≤ x} := by
      ext u
      refine and_congr_right fun hu => ?_
      rw [show (lognormalDist inv (fin mu) (fin sigma)).draw (fin u) = _ from hv u hu.1 hu.2, fin_le]
    rw [e]; exact h
  · rw [show (lognormalDist inv (fin mu) (fin sigma)).draw (fin u) = _ from hv u hu.1 hu.2]
    xr; exact Real.exp_pos _

/-- truncated_normal_dist: the error is that of inv_Phi divided by the probability of the interval, and with an exact
inverse the samples lie between the ends. -/
theorem C73_truncated_normal {inv : XR → XR} {d : ℝ} (hd : 0 ≤ d) (hi : Spec.InvertsNormal inv d) {mu sigma : ℝ} (hs : 0 < sigma) {a b : XR}
    (ha : a = ninf ∨ ∃ x, a = fin x) (hb : b = pinf ∨ ∃ x, b = fin x) (hab : a < b) : ∃ P : ℝ, 0 < P ∧
    truncPhiB (fin mu) (fin sigma) b - truncPhiA (fin mu) (fin sigma) a = fin P ∧
    Spec.InverseWithin (truncatedNormalDist inv (fin mu) (fin sigma) a b) (d / P) {x | fin x ≤ b} ∧
    (d = 0 → ∀ u ∈ (truncatedNormalDist inv (fin mu) (fin sigma) a b).deviate,
      a ≤ (truncatedNormalDist inv (fin mu) (fin sigma) a b).draw (fin u) ∧ (truncatedNormalDist inv (fin mu) (fin sigma) a b).draw (fin u) ≤ b) := by
  have ht := tail_lt (m := mu) hs ha hb hab
  have hA := tailA_nonneg mu sigma a
  have hB := tailB_le_one mu sigma b
  have hP : 0 < tailB mu sigma b - tailA mu sigma a := by linarith
  choose! g h1 h2 using hi
  simp only [stdNormal_eq] at h2
  have hw : ∀ u, 0 < u → u < 1 → 0 < u * (tailB mu sigma b - tailA mu sigma a) + tailA mu sigma a ∧
      u * (tailB mu sigma b - tailA mu sigma a) + tailA mu sigma a < 1 := fun u h0 h3 => ⟨by nlinarith, by nlinarith⟩
  set w : ℝ → ℝ := fun u => u * (tailB mu sigma b - tailA mu sigma a) + tailA mu sigma a
  have hv : ∀ u, 0 < u → u < 1 → (truncatedNormalDist inv (fin mu) (fin sigma) a b).icdf (fin u) = fin (g (w u) * sigma + mu) := by
    intro u h0 h3
    simp only [truncatedNormalDist, truncatedNormalIcdf]
    rw [truncPhiA_eq hs ha, truncPhiB_eq hs hb, fin_sub, fin_mul, fin_add, h1 _ (hw u h0 h3).1 (hw u h0 h3).2]
    xr
    rfl
  have he : ∀ u, 0 < u → u < 1 → |PhiR ((g (w u) * sigma + mu - mu) / sigma) - w u| ≤ d := by
    intro u h0 h3
    rw [add_sub_cancel_right, mul_div_cancel_right₀ _ hs.ne']
    exact h2 _ (hw u h0 h3).1 (hw u h0 h3).2
  have hq : ∀ u, 0 < u → u < 1 → |(fun x => (PhiR ((x - mu) / sigma) - tailA mu sigma a) / (tailB mu sigma b - tailA mu sigma a)) (g (w u) * sigma + mu) - u|
      ≤ d / (tailB mu sigma b - tailA mu sigma a) := by
    intro u h0 h3
    simp only
    have e : (PhiR ((g (w u) * sigma + mu - mu) / sigma) - tailA mu sigma a) / (tailB mu sigma b - tailA mu sigma a) - u
        = (PhiR ((g (w u) * sigma + mu - mu) / sigma) - w u) / (tailB mu sigma b - tailA mu sigma a) := by
      simp only [w]; field_simp; ring
    rw [e, abs_div, abs_of_pos hP]
    exact div_le_div_of_nonneg_right (he u h0 h3) hP.le
  refine ⟨tailB mu sigma b - tailA mu sigma a, hP, by rw [truncPhiA_eq hs ha, truncPhiB_eq hs hb, fin_sub],
    ⟨fun u h0 h3 => ⟨_, _, hv u h0 h3, truncated_cdf _ hs ha hb hab _, hq u h0 h3⟩, fun u hu => ⟨_, hv u hu.1 hu.2⟩,
    fun x hx => ⟨_, truncated_cdf _ hs ha hb hab x, ?_⟩⟩, fun h0 u hu => ?_⟩
  · have hm : Monotone fun x => (PhiR ((x - mu) / sigma) - tailA mu sigma a) / (tailB mu sigma b - tailA mu sigma a) := by
      intro x y hxy
      have : PhiR ((x - mu) / sigma) ≤ PhiR ((y - mu) / sigma) := strictMono_PhiR.monotone (by gcongr)
      simp only
      gcongr
    have hx1 : PhiR ((x - mu) / sigma) ≤ tailB mu sigma b := by
      rcases hb with rfl | ⟨y, rfl⟩
      · exact (PhiR_lt_one _).le
      · have : x ≤ y := hx
        exact strictMono_PhiR.monotone (by gcongr)
    have h := sampled_within hm (div_nonneg hd hP.le) hq (x := x) ((div_le_one hP).2 (by linarith))
    have e : {u : ℝ | u ∈ (truncatedNormalDist inv (fin mu) (fin sigma) a b).deviate ∧ (truncatedNormalDist inv (fin mu) (fin sigma) a b).draw (fin u) ≤ fin x}
        = {u : ℝ | u ∈ Ioo (0 : ℝ) 1 ∧ g (w u) * sigma + mu ≤ x} := by
      ext u
      refine and_congr_right fun hu => ?_
      rw [show (truncatedNormalDist inv (fin mu) (fin sigma) a b).draw (fin u) = _ from hv u hu.1 hu.2, fin_le]
    rw [e]; exact h
  · have h3 := he u hu.1 hu.2
    rw [h0, abs_nonpos_iff, sub_eq_zero] at h3
    rw [show (truncatedNormalDist inv (fin mu) (fin sigma) a b).draw (fin u) = _ from hv u hu.1 hu.2]
    have hl : tailA mu sigma a < w u := by simp only [w]; nlinarith [hu.1]
    have hr : w u < tailB mu sigma b := by simp only [w]; nlinarith [hu.2]
    rw [← h3] at hl hr
    constructor
    · have := (tailA_lt hs ha _).1 hl
      rcases ha with rfl | ⟨y, rfl⟩
      · trivial
      · exact le_of_lt (α := ℝ) this
    · have := (lt_tailB hs hb _).1 hr
      rcases hb with rfl | ⟨y, rfl⟩
      · trivial
      · exact le_of_lt (α := ℝ) this

/-- The hypothesis can be met: an exact inverse exists. -/
theorem exactInv_inverts : Spec.InvertsNormal exactInv 0 := fun u h0 h1 =>
  ⟨PhiInv u, exactInv_fin h0 h1, by rw [stdNormal_eq, PhiR_PhiInv h0 h1, sub_self, abs_zero]⟩
example : Spec.InverseWithin (normalDist exactInv (fin 3) (fin 2)) 0 univ := C73_normal le_rfl exactInv_inverts (by norm_num)

/-! ### C74: the normal distribution function and its inverse -/

/-- `Phi` is the normal distribution function, over all its branches, and at the infinities. -/
theorem C74_Phi (x : ℝ) : Phi (fin x) = fin (Spec.stdNormal x) ∧ Phi ninf = 0 ∧ Phi pinf = 1 ∧ Phi nan = nan := by
  rw [stdNormal_eq]
  exact ⟨Phi_fin x, by simp, by simp, Phi_nan⟩

theorem refine_not_finite {wide : Bool} {step : XR → XR} {y : XR} (h : ¬ isFinite y) : refine wide step y = y := by
  simp only [refine, if_neg h, h, and_false, if_false]

theorem approx_domain : (∀ x : XR, ¬(0 ≤ x ∧ x ≤ 1) → invPhiApprox x = nan) ∧ invPhiApprox 0 = ninf ∧ invPhiApprox 1 = pinf := by
  refine ⟨fun x hx => ?_, ?_, ?_⟩
  · rcases XR.outside hx with rfl | h
    · unfold invPhiApprox
      simp [ln1p, acklamTail]
    · unfold invPhiApprox
      rw [if_pos h]
  · unfold invPhiApprox
    xr
    norm_num
  · unfold invPhiApprox
    xr
    norm_num

/-- Outside [0,1] and for NaN `inv_Phi` is NaN, at 0 and 1 it is the infinity. -/
theorem C74_inv_Phi_domain (wide : Bool) :
    (∀ x : XR, ¬(0 ≤ x ∧ x ≤ 1) → invPhi wide x = nan) ∧ invPhi wide 0 = ninf ∧ invPhi wide 1 = pinf := by
  obtain ⟨h1, h2, h3⟩ := approx_domain
  refine ⟨fun x hx => ?_, ?_, ?_⟩
  · unfold invPhi; rw [h1 x hx]; exact refine_not_finite id
  · unfold invPhi; rw [h2]; exact refine_not_finite id
  · unfold invPhi; rw [h3]; exact refine_not_finite id

theorem div_two_le {x : XR} : (0 ≤ x / 2 ∧ x / 2 ≤ 1) ↔ (0 ≤ x ∧ x ≤ 2) := by
  cases x with
  | nan => exact Iff.rfl
  | ninf =>
    rw [ofNat_fin, ofNat_fin, ofNat_fin, ninf_div_fin (by positivity)]
    exact ⟨fun h => h.1.elim, fun h => h.1.elim⟩
  | pinf =>
    rw [ofNat_fin, ofNat_fin, ofNat_fin, pinf_div_fin (by positivity)]
    exact ⟨fun h => h.2.elim, fun h => h.2.elim⟩
  | fin x =>
    xr
    rw [fin_div (by norm_num)]
    xr
    constructor <;> rintro ⟨a, b⟩ <;> constructor <;> linarith

/-- Outside [-1,1] and for NaN `inv_erf` is NaN, at -1 and 1 it is the infinity. -/
theorem C74_inv_erf_domain (wide : Bool) :
    (∀ x : XR, ¬(-1 ≤ x ∧ x ≤ 1) → invErf wide x = nan) ∧ invErf wide (-1) = ninf ∧ invErf wide 1 = pinf := by
  obtain ⟨h1, h2, h3⟩ := approx_domain
  have hp : (0 : ℝ) < 1 / Real.sqrt 2 := by positivity
  refine ⟨fun x hx => ?_, ?_, ?_⟩
  · have : ¬(0 ≤ (x + 1) / 2 ∧ (x + 1) / 2 ≤ 1) := by
      rw [div_two_le]
      intro hc
      refine hx ?_
      cases x with
      | nan => exact hc
      | ninf => exact hc.1.elim
      | pinf => exact hc.2.elim
      | fin x =>
        revert hc
        xr
        rintro ⟨a, b⟩
        constructor <;> linarith
    unfold invErf; rw [h1 _ this, nan_mul]; exact refine_not_finite id
  · have : ((-1 : XR) + 1) / 2 = 0 := by
      xr; rw [fin_div (by norm_num)]; norm_num
    unfold invErf; rw [this, h2, oneOverSqrt2, ninf_mul_fin, infSign_neg (by linarith)]; exact refine_not_finite id
  · have : ((1 : XR) + 1) / 2 = 1 := by
      xr; rw [fin_div (by norm_num)]; norm_num
    unfold invErf; rw [this, h3, oneOverSqrt2, pinf_mul_fin, infSign_pos hp]; exact refine_not_finite id

/-- Outside [0,2] and for NaN `inv_erfc` is NaN, at 0 it is infinity and at 2 minus infinity. -/
theorem C74_inv_erfc_domain (wide : Bool) :
    (∀ x : XR, ¬(0 ≤ x ∧ x ≤ 2) → invErfc wide x = nan) ∧ invErfc wide 0 = pinf ∧ invErfc wide 2 = ninf := by
  obtain ⟨h1, h2, h3⟩ := approx_domain
  have hp : (0 : ℝ) < 1 / Real.sqrt 2 := by positivity
  refine ⟨fun x hx => ?_, ?_, ?_⟩
  · have e : ∀ z : XR, ¬(0 ≤ z ∧ z ≤ 2) → refine wide (halleyErfc z) (-invPhiApprox (z / 2) * oneOverSqrt2) = nan := by
      intro z hz
      rw [h1 _ (fun hc => hz (div_two_le.1 hc)), neg_nan, nan_mul]; exact refine_not_finite id
    unfold invErfc
    by_cases c : 1 < x
    · simp only [if_pos c]
      rw [e, neg_nan]
      intro hc
      refine hx ?_
      cases x with
      | nan => exact hc
      | ninf => exact c.elim
      | pinf => exact hc.1.elim
      | fin x =>
        revert hc c
        xr
        rintro a ⟨b, c⟩
        constructor <;> linarith
    · simp only [if_neg c]
      exact e x hx
  · have c : ¬ (1 : XR) < 0 := by xr; norm_num
    have e : (0 : XR) / 2 = 0 := by xr; rw [fin_div (by norm_num)]; norm_num
    unfold invErfc
    simp only [if_neg c]
    rw [e, h2, neg_ninf, oneOverSqrt2, pinf_mul_fin, infSign_pos hp]; exact refine_not_finite id
  · have c : (1 : XR) < 2 := by xr; norm_num
    have e : (-((2 : XR) - 1) + 1) / 2 = 0 := by xr; rw [fin_div (by norm_num)]; norm_num
    unfold invErfc
    simp only [if_pos c]
    rw [e, h2, neg_ninf, oneOverSqrt2, pinf_mul_fin, infSign_pos hp, refine_not_finite id]; rfl

/-- A refinement step of `inv_Phi` that starts at distance `|y - z|` from the solution `z` ends within a multiple of the third
power of that distance. -/
theorem C74_inv_Phi_step {x z y M : ℝ} (hx : Phi (fin z) = fin x) (hz : |z| ≤ M) (hy : |y| ≤ M) (hd : M * |y - z| ≤ 1 / 4) :
    ∃ y' : ℝ, halleyPhi (fin x) (fin y) = fin y' ∧ |y' - z| ≤ (3 / 2 + 3 / 4 * M ^ 2) * |y - z| ^ 3 := by
  rw [Phi_fin, fin_inj] at hx
  rw [← hx]; exact halleyPhi_bound hz hy hd
theorem C74_inv_erf_step {x z y M : ℝ} (hx : erf (fin z) = fin x) (hz : |z| ≤ M) (hy : |y| ≤ M) (hd : M * |y - z| ≤ 1 / 8) :
    ∃ y' : ℝ, halleyErf (fin x) (fin y) = fin y' ∧ |y' - z| ≤ 3 * (1 + M ^ 2) * |y - z| ^ 3 := by
  rw [erf_fin, fin_inj] at hx
  rw [← hx]; exact halleyErf_bound hz hy hd
theorem C74_inv_erfc_step {x z y M : ℝ} (hx : erfc (fin z) = fin x) (hz : |z| ≤ M) (hy : |y| ≤ M) (hd : M * |y - z| ≤ 1 / 8) :
    ∃ y' : ℝ, halleyErfc (fin x) (fin y) = fin y' ∧ |y' - z| ≤ 3 * (1 + M ^ 2) * |y - z| ^ 3 := by
  rw [erfc_fin, fin_inj] at hx
  rw [← hx]; exact halleyErfc_bound hz hy hd

/-- Hence `inv_Phi` is as exact as the third power of the error of the rational approximation. -/
theorem C74_inv_Phi {u z y M : ℝ} (hz : Phi (fin z) = fin u) (ha : invPhiApprox (fin u) = fin y) (hM : |z| ≤ M) (hy : |y| ≤ M)
    (hd : M * |y - z| ≤ 1 / 4) : ∃ y' : ℝ, invPhi false (fin u) = fin y' ∧ |y' - z| ≤ (3 / 2 + 3 / 4 * M ^ 2) * |y - z| ^ 3 := by
  obtain ⟨y', h1, h2⟩ := C74_inv_Phi_step hz hM hy hd
  refine ⟨y', ?_, h2⟩
  unfold invPhi
  rw [ha]
  have hf : isFinite (fin y) := trivial
  simp only [refine, if_pos hf, h1, Bool.false_eq_true, false_and, if_false]

theorem PhiR_zero : PhiR 0 = 1 / 2 := by simp [PhiR]

/-- At 1/2 all of this is met: the approximation is 0, and so is the result. -/
theorem invPhi_half (wide : Bool) : invPhi wide (fin (1 / 2)) = fin 0 := by
  have e : invPhiApprox (fin (1 / 2)) = fin 0 := by
    unfold invPhiApprox
    xr
    rw [if_neg (by norm_num), if_neg (by norm_num), if_neg (by norm_num), if_neg (by norm_num), if_pos (by norm_num)]
    unfold acklamCentre
    xr
    rw [fin_div (by norm_num)]; norm_num
  have s : halleyPhi (fin (1 / 2)) (fin 0) = fin 0 := by
    obtain ⟨y', h1, h2⟩ := C74_inv_Phi_step (x := 1 / 2) (z := 0) (y := 0) (M := 0) (by rw [Phi_fin, PhiR_zero]) (by simp) (by simp) (by simp)
    rw [h1, fin_inj]
    simp at h2
    exact h2
  unfold invPhi
  rw [e]
  have hf : isFinite (fin 0) := trivial
  unfold refine
  simp only [if_pos hf, s, and_true, ite_self]

example : ∃ y' : ℝ, invPhi false (fin (1 / 2)) = fin y' ∧ |y' - 0| ≤ (3 / 2 + 3 / 4 * 0 ^ 2) * |(0 : ℝ) - 0| ^ 3 :=
  ⟨0, invPhi_half false, by simp⟩
/-- A guess 0.1 for the solution 0 is improved to at most 0.002. -/
example : ∃ y' : ℝ, halleyPhi (fin (1 / 2)) (fin 0.1) = fin y' ∧ |y' - 0| ≤ 0.002 := by
  obtain ⟨y', h1, h2⟩ := C74_inv_Phi_step (x := 1 / 2) (z := 0) (y := 0.1) (M := 0.1) (by rw [Phi_fin, PhiR_zero]) (by norm_num) (by rw [abs_of_pos] <;> norm_num)
    (by rw [sub_zero, abs_of_pos] <;> norm_num)
  refine ⟨y', h1, h2.trans ?_⟩
  rw [sub_zero, abs_of_pos (by norm_num)]; norm_num

/-! ### C63: the domain of icdf -/

theorem C63_normal (wide : Bool) (mu : ℝ) {sigma : ℝ} (h : 0 < sigma) : Spec.IcdfDomain (normalDist (invPhi wide) (fin mu) (fin sigma)) := by
  obtain ⟨h1, h2, h3⟩ := C74_inv_Phi_domain wide
  refine ⟨fun x hx => ?_, ?_, ?_⟩
  · simp only [normalDist, h1 x hx, nan_mul, nan_add']
  · simp only [normalDist, h2]
    rw [ninf_mul_fin, infSign_neg (by linarith)]; rfl
  · simp only [normalDist, h3]
    rw [pinf_mul_fin, infSign_pos h]; rfl
theorem C63_lognormal (wide : Bool) (mu sigma : ℝ) : Spec.IcdfDomain (lognormalDist (invPhi wide) (fin mu) (fin sigma)) := by
  obtain ⟨h1, h2, h3⟩ := C74_inv_Phi_domain wide
  refine ⟨fun x hx => ?_, ?_, ?_⟩
  · rcases XR.outside hx with rfl | h
    · have := h1 nan (by simp)
      simp [lognormalDist, lognormalIcdf, this]
    · simp only [lognormalDist, lognormalIcdf, if_pos h]
  · simp only [lognormalDist, lognormalIcdf]
    xr; norm_num
  · simp only [lognormalDist, lognormalIcdf]
    xr; norm_num

theorem maxwellNewton_nan (theta eps : XR) (n : Nat) (y : XR) : maxwellNewton theta eps nan (n + 1) y = nan := by
  have e : ∀ y, y - (maxwellCdf theta y - nan) / maxwellPdf theta y = nan := by intro y; simp
  induction n generalizing y with
  | zero =>
    rw [maxwellNewton, e]
    simp [maxwellNewton]
  | succ n ih =>
    rw [maxwellNewton, e]
    simp only [nan_div, nan_sub]
    rw [ih, ite_self]

theorem C63_maxwell (digits : Nat) (eps : XR) (theta : ℝ) : Spec.IcdfDomain (maxwellDist digits eps (fin theta)) := by
  refine ⟨fun x hx => ?_, ?_, ?_⟩
  · rcases XR.outside hx with rfl | h
    · simp only [maxwellDist, maxwellIcdf, not_nan_lt, not_lt_nan, not_nan_eq, or_self, if_false]
      exact maxwellNewton_nan _ _ _ _
    · simp only [maxwellDist, maxwellIcdf, if_pos h]
  · simp only [maxwellDist, maxwellIcdf]
    xr; norm_num
  · simp only [maxwellDist, maxwellIcdf]
    xr; norm_num

/-- truncated_normal_dist does not check its argument: with the lower end at 1 and the upper end at infinity there is an
`x < 0` where icdf is 0. -/
theorem C63_truncated_normal_wrong (wide : Bool) : ∃ x : ℝ, x < 0 ∧ (truncatedNormalDist (invPhi wide) 0 1 1 pinf).icdf (fin x) = fin 0 := by
  have hA : truncPhiA 0 1 1 = fin (PhiR 1) := by
    have := truncPhiA_eq (m := 0) (s := 1) one_pos (a := fin 1) (Or.inr ⟨1, rfl⟩)
    simpa [tailA] using this
  have hB : truncPhiB 0 1 pinf = fin 1 := by
    have := truncPhiB_eq (m := 0) (s := 1) one_pos (b := pinf) (Or.inl rfl)
    simpa [tailB] using this
  have h1 : 1 / 2 < PhiR 1 := by rw [← PhiR_zero]; exact strictMono_PhiR one_pos
  have h2 := PhiR_lt_one 1
  refine ⟨(1 / 2 - PhiR 1) / (1 - PhiR 1), div_neg_of_neg_of_pos (by linarith) (by linarith), ?_⟩
  simp only [truncatedNormalDist, truncatedNormalIcdf, hA, hB]
  rw [fin_sub, fin_mul, fin_add, div_mul_cancel₀ _ (by linarith), sub_add_cancel, invPhi_half]
  xr; norm_num

end Trng
