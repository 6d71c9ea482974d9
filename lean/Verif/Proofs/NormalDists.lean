import Verif.Proofs.Normal

/-! The real functions behind the normal, lognormal, truncated normal and Maxwell distributions. -/
namespace Trng
open XR MeasureTheory Filter Topology Set
open Classical

/-- The exact inverse of the normal distribution function, with the special values of the code's. -/
noncomputable def exactInv (x : XR) : XR :=
  if x < 0 ∨ 1 < x then nan else if eq x 0 then -pinf else if eq x 1 then pinf else
    match x with
    | fin u => fin (PhiInv u)
    | _ => nan

theorem exactInv_fin {u : ℝ} (h0 : 0 < u) (h1 : u < 1) : exactInv (fin u) = fin (PhiInv u) := by
  obtain ⟨a, -, -, b, c⟩ := icdf_ok h0 h1
  simp only [exactInv, if_neg a, if_neg b, if_neg c]

theorem PhiInv_strictMono {u v : ℝ} (h0 : 0 < u) (h : u < v) (h1 : v < 1) : PhiInv u < PhiInv v := by
  rw [← strictMono_PhiR.lt_iff_lt, PhiR_PhiInv h0 (h.trans h1), PhiR_PhiInv (h0.trans h) h1]; exact h

/-! ### normal_dist -/

theorem normal_cdf (inv : XR → XR) {m s : ℝ} (hs : 0 < s) (x : ℝ) :
    (normalDist inv (fin m) (fin s)).cdf (fin x) = fin (PhiR ((x - m) / s)) := by
  simp only [normalDist]
  rw [fin_sub, fin_div hs.ne', Phi_fin]

theorem hasDerivAt_normal {m s : ℝ} (x : ℝ) : HasDerivAt (fun x => PhiR ((x - m) / s)) (phiR ((x - m) / s) / s) x := by
  have h1 : HasDerivAt (fun y : ℝ => (y - m) / s) (1 / s) x := ((hasDerivAt_id x).sub_const m).div_const s
  have h2 := HasDerivAt.comp x (hasDerivAt_PhiR ((x - m) / s)) h1
  exact h2.congr_deriv (by ring)

theorem normal_data {m s : ℝ} (hs : 0 < s) : CdfData (normalDist exactInv (fin m) (fin s))
    (fun x => PhiR ((x - m) / s)) (fun x => phiR ((x - m) / s) / s) (fun u => PhiInv u * s + m) ∅ where
  cdf x := normal_cdf _ hs x
  pdf x _ := by
    simp only [normalDist, oneOverSqrt2pi]
    xr
    rw [fin_div hs.ne', fin_div (by nlinarith)]; xr
    rw [fin_inj, phiR]
    have e : (x - m) * (x - m) / (-2 * s * s) = -((x - m) / s) * ((x - m) / s) / 2 := by field_simp
    rw [e]; ring
  icdf u h0 h1 := by
    simp only [normalDist, exactInv_fin h0 h1]; xr
  lower := Or.inl rfl
  upper := Or.inl rfl
  order := trivial
  below x h := h.elim
  above x h := h.elim
  mono x y _ h2 _ := strictMono_PhiR.monotone (by gcongr)
  right u h0 h1 := by
    rw [show (PhiInv u * s + m - m) / s = PhiInv u by field_simp; ring, PhiR_PhiInv h0 h1]
  left x _ _ := ⟨PhiR_pos _, PhiR_lt_one _, by rw [PhiInv_PhiR]; field_simp; ring⟩
  finite := finite_empty
  deriv x _ := hasDerivAt_normal x
  nonneg x _ := div_nonneg (phiR_pos _).le hs.le

/-! ### lognormal_dist -/

theorem lognormal_cdf (inv : XR → XR) {m s : ℝ} (hs : 0 < s) (x : ℝ) :
    (lognormalDist inv (fin m) (fin s)).cdf (fin x) = fin (if x ≤ 0 then 0 else PhiR ((Real.log x - m) / s)) := by
  simp only [lognormalDist, oneOverSqrt2]
  xr
  by_cases h : x ≤ 0
  · simp only [if_pos h]
  · simp only [if_neg h]
    rw [ln_fin (not_le.1 h)]; xr
    rw [fin_div hs.ne', erfc_fin, fin_div (by norm_num), fin_inj, PhiR,
      show 1 / Real.sqrt 2 * (m - Real.log x) / s = -((Real.log x - m) / s / Real.sqrt 2) by ring, erfR_neg]
    ring

theorem lognormal_data {m s : ℝ} (hs : 0 < s) : CdfData (lognormalDist exactInv (fin m) (fin s))
    (fun x => if x ≤ 0 then 0 else PhiR ((Real.log x - m) / s)) (fun x => if x ≤ 0 then 0 else phiR ((Real.log x - m) / s) / (x * s))
    (fun u => Real.exp (PhiInv u * s + m)) {0} where
  cdf x := lognormal_cdf _ hs x
  pdf x _ := by
    simp only [lognormalDist, oneOverSqrt2pi]
    xr
    by_cases h : x ≤ 0
    · simp only [if_pos h]
    · have hx := not_le.1 h
      simp only [if_neg h]
      rw [ln_fin hx]; xr
      rw [fin_div hs.ne', fin_div (by positivity)]; xr
      rw [fin_div (by norm_num)]; xr
      rw [fin_inj, phiR]; ring
  icdf u h0 h1 := by
    obtain ⟨a, -, -, b, c⟩ := icdf_ok h0 h1
    simp only [lognormalDist, lognormalIcdf, if_neg a, if_neg b, if_neg c, exactInv_fin h0 h1]; xr
  lower := Or.inr ⟨0, by simp [lognormalDist]⟩
  upper := Or.inl rfl
  order := trivial
  below x h := if_pos (by simpa [lognormalDist] using h)
  above x h := h.elim
  mono x y h1 h2 _ := by
    have hx : 0 < x := by simpa [lognormalDist] using h1
    rw [if_neg (by linarith), if_neg (by linarith)]
    exact strictMono_PhiR.monotone (by gcongr)
  right u h0 h1 := by
    rw [if_neg (not_le.2 (Real.exp_pos _)), Real.log_exp, show (PhiInv u * s + m - m) / s = PhiInv u by field_simp; ring, PhiR_PhiInv h0 h1]
  left x h1 _ := by
    have hx : 0 < x := by simpa [lognormalDist] using h1
    simp only [if_neg (not_le.2 hx)]
    refine ⟨PhiR_pos _, PhiR_lt_one _, ?_⟩
    rw [PhiInv_PhiR, div_mul_cancel₀ _ hs.ne', sub_add_cancel, Real.exp_log hx]
  finite := finite_singleton 0
  deriv x hx := by
    rcases lt_or_gt_of_ne (show x ≠ 0 from hx) with h | h
    · rw [if_pos h.le]
      exact hasDerivAt_left h (hasDerivAt_const x (0 : ℝ)) fun y hy => if_pos hy.le
    · rw [if_neg (not_le.2 h)]
      refine hasDerivAt_right (g := fun y => PhiR ((Real.log y - m) / s)) h ?_ fun y hy => if_neg (not_le.2 hy)
      have h1 : HasDerivAt (fun y : ℝ => (Real.log y - m) / s) (x⁻¹ / s) x := ((Real.hasDerivAt_log h.ne').sub_const m).div_const s
      have h2 := HasDerivAt.comp x (hasDerivAt_PhiR ((Real.log x - m) / s)) h1
      exact h2.congr_deriv (by field_simp)
  nonneg x _ := by
    split_ifs with h
    · exact le_rfl
    · exact div_nonneg (phiR_pos _).le (mul_nonneg (not_le.1 h).le hs.le)

/-! ### truncated_normal_dist with the distribution function clipped at the ends -/

/-- A lower end: a number or minus infinity; an upper end: a number or infinity. -/
def LowerEnd (a : XR) : Prop := a = ninf ∨ ∃ x : ℝ, a = fin x
def UpperEnd (b : XR) : Prop := b = pinf ∨ ∃ x : ℝ, b = fin x

/-- The probabilities of the normal distribution below the ends. -/
noncomputable def tailA (m s : ℝ) : XR → ℝ
  | fin x => PhiR ((x - m) / s)
  | _ => 0
noncomputable def tailB (m s : ℝ) : XR → ℝ
  | fin x => PhiR ((x - m) / s)
  | _ => 1

theorem truncPhiA_eq {m s : ℝ} (hs : 0 < s) {a : XR} (ha : LowerEnd a) : truncPhiA (fin m) (fin s) a = fin (tailA m s a) := by
  rcases ha with rfl | ⟨x, rfl⟩
  · unfold truncPhiA
    rw [if_neg (by exact id)]; simp [tailA]
  · unfold truncPhiA
    rw [if_pos (by exact trivial), fin_sub, fin_div hs.ne', Phi_fin]; rfl
theorem truncPhiB_eq {m s : ℝ} (hs : 0 < s) {b : XR} (hb : UpperEnd b) : truncPhiB (fin m) (fin s) b = fin (tailB m s b) := by
  rcases hb with rfl | ⟨x, rfl⟩
  · unfold truncPhiB
    rw [if_neg (by exact id)]; simp [tailB]
  · unfold truncPhiB
    rw [if_pos (by exact trivial), fin_sub, fin_div hs.ne', Phi_fin]; rfl

theorem PhiR_scale_lt {m s x y : ℝ} (hs : 0 < s) : PhiR ((x - m) / s) < PhiR ((y - m) / s) ↔ x < y := by
  rw [strictMono_PhiR.lt_iff_lt, div_lt_div_iff_of_pos_right hs, sub_lt_sub_iff_right]

theorem tail_lt {m s : ℝ} (hs : 0 < s) {a b : XR} (ha : LowerEnd a) (hb : UpperEnd b) (h : a < b) : tailA m s a < tailB m s b := by
  rcases ha with rfl | ⟨x, rfl⟩ <;> rcases hb with rfl | ⟨y, rfl⟩
  · exact one_pos
  · exact PhiR_pos _
  · exact PhiR_lt_one _
  · exact (PhiR_scale_lt hs).2 h

theorem tailA_lt {m s : ℝ} (hs : 0 < s) {a : XR} (ha : LowerEnd a) (x : ℝ) : tailA m s a < PhiR ((x - m) / s) ↔ a < fin x := by
  rcases ha with rfl | ⟨y, rfl⟩
  · exact ⟨fun _ => trivial, fun _ => PhiR_pos _⟩
  · exact PhiR_scale_lt hs
theorem lt_tailB {m s : ℝ} (hs : 0 < s) {b : XR} (hb : UpperEnd b) (x : ℝ) : PhiR ((x - m) / s) < tailB m s b ↔ fin x < b := by
  rcases hb with rfl | ⟨y, rfl⟩
  · exact ⟨fun _ => trivial, fun _ => PhiR_lt_one _⟩
  · exact PhiR_scale_lt hs
theorem tailA_nonneg (m s : ℝ) (a : XR) : 0 ≤ tailA m s a := by
  unfold tailA; split
  · exact (PhiR_pos _).le
  · exact le_rfl
theorem tailB_le_one (m s : ℝ) (b : XR) : tailB m s b ≤ 1 := by
  unfold tailB; split
  · exact (PhiR_lt_one _).le
  · exact le_rfl

theorem not_lt_iff_le_lower {a : XR} (ha : LowerEnd a) (x : ℝ) : ¬ a < fin x ↔ fin x ≤ a := by
  rcases ha with rfl | ⟨y, rfl⟩
  · exact ⟨fun h => h trivial, fun h => h.elim⟩
  · simp
theorem not_lt_iff_le_upper {b : XR} (hb : UpperEnd b) (x : ℝ) : ¬ fin x < b ↔ b ≤ fin x := by
  rcases hb with rfl | ⟨y, rfl⟩
  · exact ⟨fun h => h trivial, fun h => h.elim⟩
  · simp

theorem truncated_cdf (inv : XR → XR) {m s : ℝ} (hs : 0 < s) {a b : XR} (ha : LowerEnd a) (hb : UpperEnd b) (h : a < b) (x : ℝ) :
    (truncatedNormalDist inv (fin m) (fin s) a b).cdf (fin x) = fin ((PhiR ((x - m) / s) - tailA m s a) / (tailB m s b - tailA m s a)) := by
  have := tail_lt (m := m) hs ha hb h
  simp only [truncatedNormalDist]
  rw [truncPhiA_eq hs ha, truncPhiB_eq hs hb, fin_sub x, fin_div hs.ne', Phi_fin, fin_sub, fin_sub, fin_div (by linarith)]

theorem truncated_pdf (inv : XR → XR) {m s : ℝ} (hs : 0 < s) {a b : XR} (ha : LowerEnd a) (hb : UpperEnd b) (h : a < b) (x : ℝ) :
    (truncatedNormalDist inv (fin m) (fin s) a b).pdf (fin x) = fin (phiR ((x - m) / s) / s / (tailB m s b - tailA m s a)) := by
  have := tail_lt (m := m) hs ha hb h
  simp only [truncatedNormalDist, oneOverSqrt2pi]
  rw [truncPhiA_eq hs ha, truncPhiB_eq hs hb, fin_sub x, fin_div hs.ne', fin_div hs.ne']
  xr
  rw [fin_div (by norm_num)]
  xr
  rw [fin_div (by linarith), fin_inj, phiR]
  ring

/-- truncated_normal_dist with a distribution function and a density that are right outside the support; only an aid for
the proofs. -/
noncomputable def truncatedClipped (inv : XR → XR) (mu sigma a b : XR) : ContDist :=
  { truncatedNormalDist inv mu sigma a b with
    cdf := fun x => if x ≤ a then 0 else if b ≤ x then 1 else (truncatedNormalDist inv mu sigma a b).cdf x
    pdf := fun x => if x ≤ a ∨ b ≤ x then 0 else (truncatedNormalDist inv mu sigma a b).pdf x }

/-- The points where the truncated density jumps. -/
def endPoints (a b : XR) : Set ℝ := {x | a = fin x ∨ b = fin x}

theorem endPoints_finite (a b : XR) : (endPoints a b).Finite := by
  have : ∀ c : XR, ({x : ℝ | c = fin x}).Finite := by
    intro c
    refine Set.Subsingleton.finite fun x hx y hy => ?_
    have : fin x = fin y := (show c = fin x from hx).symm.trans hy
    exact (fin_inj _ _).1 this
  exact ((this a).union (this b))

theorem truncated_data {m s : ℝ} (hs : 0 < s) {a b : XR} (ha : LowerEnd a) (hb : UpperEnd b) (h : a < b) :
    CdfData (truncatedClipped exactInv (fin m) (fin s) a b)
    (fun x => if fin x ≤ a then 0 else if b ≤ fin x then 1 else (PhiR ((x - m) / s) - tailA m s a) / (tailB m s b - tailA m s a))
    (fun x => if fin x ≤ a ∨ b ≤ fin x then 0 else phiR ((x - m) / s) / s / (tailB m s b - tailA m s a))
    (fun u => PhiInv (u * (tailB m s b - tailA m s a) + tailA m s a) * s + m) (endPoints a b) where
  cdf x := by
    simp only [truncatedClipped]
    split_ifs
    · simp
    · simp
    · exact truncated_cdf _ hs ha hb h x
  pdf x _ := by
    simp only [truncatedClipped]
    split_ifs
    · simp
    · exact truncated_pdf _ hs ha hb h x
  icdf u h0 h1 := by
    have ht := tail_lt (m := m) hs ha hb h
    have hA := tailA_nonneg m s a
    have hB := tailB_le_one m s b
    simp only [truncatedClipped, truncatedNormalDist, truncatedNormalIcdf]
    rw [truncPhiA_eq hs ha, truncPhiB_eq hs hb, fin_sub, fin_mul, fin_add, exactInv_fin (by nlinarith) (by nlinarith)]
    xr
  lower := ha
  upper := hb
  order := h
  below x h := if_pos h
  above x hx := by
    have h1 : ¬ fin x ≤ a := by
      rcases ha with rfl | ⟨y, rfl⟩
      · exact id
      · rcases hb with rfl | ⟨z, rfl⟩
        · exact hx.elim
        · rw [fin_le]; exact not_le.2 (lt_of_lt_of_le ((fin_lt _ _).1 h) ((fin_le _ _).1 hx))
    rw [if_neg h1]; exact if_pos hx
  mono x y h1 h2 h3 := by
    have hx1 : ¬ fin x ≤ a := fun hc => (not_lt_iff_le_lower ha x).2 hc h1
    have hy2 : ¬ b ≤ fin y := fun hc => (not_lt_iff_le_upper hb y).2 hc h3
    have hm : PhiR ((x - m) / s) ≤ PhiR ((y - m) / s) := strictMono_PhiR.monotone (by gcongr)
    have hy1 : a < fin y := (tailA_lt (m := m) hs ha y).1 (lt_of_lt_of_le ((tailA_lt hs ha x).2 h1) hm)
    have hx2 : fin x < b := (lt_tailB (m := m) hs hb x).1 (lt_of_le_of_lt hm ((lt_tailB hs hb y).2 h3))
    have ht := tail_lt (m := m) hs ha hb h
    rw [if_neg hx1, if_neg (fun hc => (not_lt_iff_le_upper hb x).2 hc hx2), if_neg (fun hc => (not_lt_iff_le_lower ha y).2 hc hy1), if_neg hy2]
    have : 0 < tailB m s b - tailA m s a := by linarith
    gcongr
  right u h0 h1 := by
    have ht := tail_lt (m := m) hs ha hb h
    have hA := tailA_nonneg m s a
    have hB := tailB_le_one m s b
    have hp := PhiR_PhiInv (u := u * (tailB m s b - tailA m s a) + tailA m s a) (by nlinarith) (by nlinarith)
    set z := PhiInv (u * (tailB m s b - tailA m s a) + tailA m s a)
    have e : (z * s + m - m) / s = z := by field_simp; ring
    have hl : a < fin (z * s + m) := (tailA_lt (m := m) hs ha _).1 (by rw [e, hp]; nlinarith)
    have hr : fin (z * s + m) < b := (lt_tailB (m := m) hs hb _).1 (by rw [e, hp]; nlinarith)
    rw [if_neg (fun hc => (not_lt_iff_le_lower ha _).2 hc hl), if_neg (fun hc => (not_lt_iff_le_upper hb _).2 hc hr), e, hp]
    have : tailB m s b - tailA m s a ≠ 0 := by linarith
    field_simp; ring
  left x h1 h2 := by
    have ht := tail_lt (m := m) hs ha hb h
    have hl := (tailA_lt (m := m) hs ha x).2 h1
    have hr := (lt_tailB (m := m) hs hb x).2 h2
    simp only [if_neg (fun hc => (not_lt_iff_le_lower ha x).2 hc h1), if_neg (fun hc => (not_lt_iff_le_upper hb x).2 hc h2)]
    have hd : 0 < tailB m s b - tailA m s a := by linarith
    refine ⟨div_pos (by linarith) hd, (div_lt_one hd).2 (by linarith), ?_⟩
    rw [div_mul_cancel₀ _ hd.ne', sub_add_cancel, PhiInv_PhiR]
    field_simp; ring
  finite := endPoints_finite a b
  deriv x hx := by
    have ht := tail_lt (m := m) hs ha hb h
    by_cases h1 : fin x ≤ a
    · rw [if_pos (Or.inl h1)]
      rcases ha with rfl | ⟨y, rfl⟩
      · exact h1.elim
      have hy : x < y := lt_of_le_of_ne h1 fun e => hx (Or.inl (by rw [e]))
      exact hasDerivAt_left hy (hasDerivAt_const x (0 : ℝ)) fun z hz => if_pos ((fin_le _ _).2 hz.le)
    · by_cases h2 : b ≤ fin x
      · rw [if_pos (Or.inr h2)]
        rcases hb with rfl | ⟨y, rfl⟩
        · exact h2.elim
        have hy : y < x := lt_of_le_of_ne h2 fun e => hx (Or.inr (by rw [e]))
        refine hasDerivAt_right hy (hasDerivAt_const x (1 : ℝ)) fun z hz => ?_
        have hz1 : ¬ fin z ≤ a := fun hc => (not_lt_iff_le_lower ha z).2 hc (by
          rcases ha with rfl | ⟨w, rfl⟩
          · trivial
          · exact (fin_lt _ _).2 (((fin_lt _ _).1 h).trans hz))
        rw [if_neg hz1]; exact if_pos ((fin_le _ _).2 hz.le)
      · rw [if_neg (not_or.2 ⟨h1, h2⟩)]
        have ha' : a < fin x := not_not.1 fun hc => h1 ((not_lt_iff_le_lower ha x).1 hc)
        have hb' : fin x < b := not_not.1 fun hc => h2 ((not_lt_iff_le_upper hb x).1 hc)
        have hg : HasDerivAt (fun x => (PhiR ((x - m) / s) - tailA m s a) / (tailB m s b - tailA m s a))
          (phiR ((x - m) / s) / s / (tailB m s b - tailA m s a)) x := ((hasDerivAt_normal x).sub_const _).div_const _
        refine hg.congr_of_eventuallyEq ?_
        have e1 : ∀ᶠ y in 𝓝 x, a < fin y := by
          rcases ha with rfl | ⟨w, rfl⟩
          · exact Eventually.of_forall fun _ => trivial
          · exact Ioi_mem_nhds ((fin_lt _ _).1 ha')
        have e2 : ∀ᶠ y in 𝓝 x, fin y < b := by
          rcases hb with rfl | ⟨w, rfl⟩
          · exact Eventually.of_forall fun _ => trivial
          · exact Iio_mem_nhds ((fin_lt _ _).1 hb')
        filter_upwards [e1, e2] with y hy1 hy2
        rw [if_neg (fun hc => (not_lt_iff_le_lower ha y).2 hc hy1), if_neg (fun hc => (not_lt_iff_le_upper hb y).2 hc hy2)]
  nonneg x _ := by
    have ht := tail_lt (m := m) hs ha hb h
    split_ifs
    · exact le_rfl
    · exact div_nonneg (div_nonneg (phiR_pos _).le hs.le) (by linarith)

/-! ### maxwell_dist clipped at 0 -/

/-- The distribution function of maxwell_dist. -/
noncomputable def maxwellF (t x : ℝ) : ℝ :=
  erfR (x / Real.sqrt 2 / t) - Real.sqrt (2 / Real.pi) * x * Real.exp (-x * x / (2 * t * t)) / t
noncomputable def maxwellf (t x : ℝ) : ℝ :=
  Real.sqrt (2 / Real.pi) * (x * x) * Real.exp (-(x * x) / (2 * (t * t))) / (t * t * t)

theorem maxwell_cdf {t : ℝ} (ht : 0 < t) (x : ℝ) : maxwellCdf (fin t) (fin x) = fin (maxwellF t x) := by
  unfold maxwellCdf oneOverSqrt2 sqrt2OverPi
  xr
  rw [fin_div ht.ne', fin_div (by positivity)]; xr
  rw [fin_div ht.ne', erf_fin, fin_sub, fin_inj, maxwellF]
  congr 3; ring

theorem maxwell_pdf {t : ℝ} (ht : 0 < t) (x : ℝ) : maxwellPdf (fin t) (fin x) = fin (maxwellf t x) := by
  unfold maxwellPdf sqrt2OverPi
  xr
  rw [fin_div (by positivity)]; xr
  rw [fin_div (by positivity), maxwellf]

theorem sqrt_two_div_pi : Real.sqrt (2 / Real.pi) = 2 / Real.sqrt Real.pi * (1 / Real.sqrt 2) := by
  rw [Real.sqrt_div (by norm_num)]
  have : Real.sqrt 2 * Real.sqrt 2 = 2 := Real.mul_self_sqrt (by norm_num)
  have h2 : Real.sqrt 2 ≠ 0 := by positivity
  have h3 : Real.sqrt Real.pi ≠ 0 := by positivity
  field_simp
  linarith

theorem hasDerivAt_maxwell {t : ℝ} (ht : 0 < t) (x : ℝ) : HasDerivAt (maxwellF t) (maxwellf t x) x := by
  have h1 : HasDerivAt (fun y : ℝ => y / Real.sqrt 2 / t) (1 / Real.sqrt 2 / t) x := ((hasDerivAt_id x).div_const _).div_const _
  have h2 := HasDerivAt.comp x (hasDerivAt_erfR (x / Real.sqrt 2 / t)) h1
  have h3 : HasDerivAt (fun y : ℝ => -y * y / (2 * t * t)) ((-1 * x + -x * 1) / (2 * t * t)) x :=
    ((hasDerivAt_id x).fun_neg.fun_mul (hasDerivAt_id x)).div_const _
  have h4 := (((hasDerivAt_id x).const_mul (Real.sqrt (2 / Real.pi))).fun_mul h3.exp).div_const t
  have h5 := h2.fun_sub h4
  refine (h5.congr_deriv ?_ : HasDerivAt _ (maxwellf t x) x)
  have e : (x / Real.sqrt 2 / t) ^ 2 = x * x / (2 * t * t) := by
    rw [div_pow, div_pow, Real.sq_sqrt (by norm_num)]; field_simp
  simp only [id, maxwellf]
  rw [e, show -(x * x / (2 * t * t)) = -x * x / (2 * t * t) by ring, show -(x * x) / (2 * (t * t)) = -x * x / (2 * t * t) by ring, sqrt_two_div_pi]
  have h2 : Real.sqrt 2 ≠ 0 := by positivity
  have h3 : Real.sqrt Real.pi ≠ 0 := by positivity
  field_simp
  ring

theorem maxwellf_pos {t : ℝ} (ht : 0 < t) {x : ℝ} (hx : x ≠ 0) : 0 < maxwellf t x := by
  have : 0 < x * x := mul_self_pos.2 hx
  unfold maxwellf; positivity
theorem maxwellF_zero (t : ℝ) : maxwellF t 0 = 0 := by simp [maxwellF]
theorem maxwellF_neg (t x : ℝ) : maxwellF t (-x) = -maxwellF t x := by
  unfold maxwellF
  rw [show -x / Real.sqrt 2 / t = -(x / Real.sqrt 2 / t) by ring, erfR_neg, show - -x * -x / (2 * t * t) = -x * x / (2 * t * t) by ring]
  ring

theorem continuous_maxwell {t : ℝ} (ht : 0 < t) : Continuous (maxwellF t) :=
  continuous_iff_continuousAt.2 fun x => (hasDerivAt_maxwell ht x).continuousAt

theorem maxwellF_strictMonoOn {t : ℝ} (ht : 0 < t) : StrictMonoOn (maxwellF t) (Ici 0) := by
  refine strictMonoOn_of_deriv_pos (convex_Ici 0) (continuous_maxwell ht).continuousOn fun x hx => ?_
  rw [interior_Ici] at hx
  rw [(hasDerivAt_maxwell ht x).deriv]
  exact maxwellf_pos ht (ne_of_gt hx)

theorem tendsto_maxwellF {t : ℝ} (ht : 0 < t) : Tendsto (maxwellF t) atTop (𝓝 1) := by
  have h1 : Tendsto (fun x : ℝ => x / Real.sqrt 2 / t) atTop atTop := (tendsto_id.atTop_div_const (by positivity)).atTop_div_const ht
  have h2 := tendsto_erfR_top.comp h1
  have h3 : Tendsto (fun x : ℝ => x * Real.exp (-x * x / (2 * t * t))) atTop (𝓝 0) := by
    have h := (Real.tendsto_pow_mul_exp_neg_atTop_nhds_zero 1)
    refine squeeze_zero' ?_ ?_ h
    · filter_upwards [eventually_ge_atTop 0] with x hx
      positivity
    · filter_upwards [eventually_ge_atTop (2 * t * t), eventually_ge_atTop 0] with x hx h0
      rw [pow_one]
      refine mul_le_mul_of_nonneg_left (Real.exp_le_exp.2 ?_) h0
      rw [div_le_iff₀ (by positivity)]
      nlinarith
  have h4 := (h3.const_mul (Real.sqrt (2 / Real.pi))).div_const t
  have h5 := h2.sub h4
  rw [mul_zero, zero_div, sub_zero] at h5
  refine h5.congr fun x => ?_
  simp only [Function.comp, maxwellF]
  ring

theorem maxwellF_lt_one {t : ℝ} (ht : 0 < t) (x : ℝ) : maxwellF t x < 1 := by
  have hpos : ∀ y : ℝ, 0 ≤ y → maxwellF t y < 1 := by
    intro y hy
    have h1 : maxwellF t y < maxwellF t (y + 1) := maxwellF_strictMonoOn ht hy (show (0 : ℝ) ≤ y + 1 by linarith) (by linarith)
    refine lt_of_lt_of_le h1 (ge_of_tendsto (tendsto_maxwellF ht) ?_)
    filter_upwards [eventually_ge_atTop (y + 1)] with z hz
    exact (maxwellF_strictMonoOn ht).monotoneOn (show (0 : ℝ) ≤ y + 1 by linarith) (show (0 : ℝ) ≤ z by linarith) hz
  rcases le_or_gt 0 x with h | h
  · exact hpos x h
  · have h1 := (maxwellF_strictMonoOn ht) (show (0 : ℝ) ∈ Ici 0 from le_refl (0 : ℝ)) (show (0 : ℝ) ≤ -x by linarith) (by linarith : (0 : ℝ) < -x)
    rw [maxwellF_zero, maxwellF_neg] at h1
    linarith
theorem maxwellF_pos {t : ℝ} (ht : 0 < t) {x : ℝ} (hx : 0 < x) : 0 < maxwellF t x := by
  have h1 := (maxwellF_strictMonoOn ht) (show (0 : ℝ) ∈ Ici 0 from le_refl (0 : ℝ)) (show (0 : ℝ) ≤ x from hx.le) hx
  rwa [maxwellF_zero] at h1

theorem exists_maxwellF {t : ℝ} (ht : 0 < t) {u : ℝ} (h0 : 0 < u) (h1 : u < 1) : ∃ y, 0 < y ∧ maxwellF t y = u := by
  obtain ⟨z, hz⟩ := ((tendsto_maxwellF ht).eventually_const_lt h1).exists
  have hl : ∃ y, maxwellF t y ≤ u := ⟨0, by rw [maxwellF_zero]; exact h0.le⟩
  obtain ⟨y, hy⟩ := mem_range_of_exists_le_of_exists_ge (continuous_maxwell ht) hl ⟨z, hz.le⟩
  refine ⟨y, ?_, hy⟩
  by_contra hc
  have : maxwellF t (-y) ≥ 0 := by
    rcases eq_or_lt_of_le (not_lt.1 hc) with e | e
    · rw [e, neg_zero, maxwellF_zero]
    · exact (maxwellF_pos ht (by linarith)).le
  rw [maxwellF_neg, hy] at this
  linarith

noncomputable def maxwellG (t u : ℝ) : ℝ := if h : 0 < t ∧ 0 < u ∧ u < 1 then (exists_maxwellF h.1 h.2.1 h.2.2).choose else 0
theorem maxwellG_spec {t u : ℝ} (ht : 0 < t) (h0 : 0 < u) (h1 : u < 1) : 0 < maxwellG t u ∧ maxwellF t (maxwellG t u) = u := by
  rw [maxwellG, dif_pos ⟨ht, h0, h1⟩]
  exact (exists_maxwellF ht h0 h1).choose_spec

/-- maxwell_dist with a distribution function and a density that are right below 0, and an exact inverse; only an aid for
the proofs. -/
noncomputable def maxwellClipped (theta : ℝ) : ContDist where
  draw u := match u with | fin u => fin (maxwellG theta u) | _ => nan
  deviate := Set.Ioo 0 1
  min := 0
  max := pinf
  pdf x := if x ≤ 0 then 0 else maxwellPdf (fin theta) x
  cdf x := if x ≤ 0 then 0 else maxwellCdf (fin theta) x
  icdf x := match x with | fin u => fin (maxwellG theta u) | _ => nan

theorem maxwell_data {t : ℝ} (ht : 0 < t) : CdfData (maxwellClipped t)
    (fun x => if x ≤ 0 then 0 else maxwellF t x) (fun x => if x ≤ 0 then 0 else maxwellf t x) (maxwellG t) ∅ where
  cdf x := by
    simp only [maxwellClipped, maxwell_cdf ht]
    xr
    split_ifs <;> rfl
  pdf x _ := by
    simp only [maxwellClipped, maxwell_pdf ht]
    xr
    split_ifs <;> rfl
  icdf u h0 h1 := rfl
  lower := Or.inr ⟨0, by simp [maxwellClipped]⟩
  upper := Or.inl rfl
  order := trivial
  below x h := if_pos (by simpa [maxwellClipped] using h)
  above x h := h.elim
  mono x y h1 h2 _ := by
    have hx : 0 < x := by simpa [maxwellClipped] using h1
    rw [if_neg (by linarith), if_neg (by linarith)]
    exact (maxwellF_strictMonoOn ht).monotoneOn (show (0 : ℝ) ≤ x from hx.le) (show (0 : ℝ) ≤ y by linarith) h2
  right u h0 h1 := by
    obtain ⟨a, b⟩ := maxwellG_spec ht h0 h1
    rw [if_neg (not_le.2 a), b]
  left x h1 _ := by
    have hx : 0 < x := by simpa [maxwellClipped] using h1
    simp only [if_neg (not_le.2 hx)]
    have p := maxwellF_pos ht hx
    refine ⟨p, maxwellF_lt_one ht x, ?_⟩
    obtain ⟨a, b⟩ := maxwellG_spec ht p (maxwellF_lt_one ht x)
    exact (maxwellF_strictMonoOn ht).injOn (show (0 : ℝ) ≤ _ from a.le) (show (0 : ℝ) ≤ x from hx.le) b
  finite := finite_empty
  deriv x _ := by
    rcases lt_trichotomy x 0 with h | h | h
    · rw [if_pos h.le]
      exact hasDerivAt_left h (hasDerivAt_const x (0 : ℝ)) fun y hy => if_pos hy.le
    · rw [if_pos h.le, h]
      refine hasDerivAt_pieces (g := fun _ => 0) (h := maxwellF t) (hasDerivAt_const _ _) ?_ (fun y hy => if_pos hy) fun y hy => ?_
      · exact (hasDerivAt_maxwell ht 0).congr_deriv (by simp [maxwellf])
      · rcases eq_or_lt_of_le (show (0 : ℝ) ≤ y from hy) with e | e
        · rw [if_pos e.ge, ← e, maxwellF_zero]
        · exact if_neg (not_le.2 e)
    · rw [if_neg (not_le.2 h)]
      exact hasDerivAt_right h (hasDerivAt_maxwell ht x) fun y hy => if_neg (not_le.2 hy)
  nonneg x _ := by
    split_ifs with h
    · exact le_rfl
    · exact (maxwellf_pos ht (not_le.1 h).ne').le

/-! ### Sampling through an approximate inverse -/

/-- If `F (g u)` is within `d` of `u`, then `g` of a uniform deviate has the distribution function `F` up to `d`. -/
theorem sampled_within {F g : ℝ → ℝ} (hF : Monotone F) {d : ℝ} (hd : 0 ≤ d) (hg : ∀ u, 0 < u → u < 1 → |F (g u) - u| ≤ d) {x : ℝ} (hx1 : F x ≤ 1) :
    ENNReal.ofReal (F x - d) ≤ volume {u : ℝ | u ∈ Ioo (0 : ℝ) 1 ∧ g u ≤ x} ∧
    volume {u : ℝ | u ∈ Ioo (0 : ℝ) 1 ∧ g u ≤ x} ≤ ENNReal.ofReal (F x + d) := by
  constructor
  · refine le_trans (le_of_eq ?_) (measure_mono (s := Ioo 0 (F x - d)) ?_)
    · rw [Real.volume_Ioo, sub_zero]
    · intro u hu
      have hu1 : u < 1 := by linarith [hu.2]
      refine ⟨⟨hu.1, hu1⟩, ?_⟩
      by_contra hc
      have h1 := hF (not_le.1 hc).le
      have h2 := (abs_le.1 (hg u hu.1 hu1)).2
      linarith [hu.2]
  · refine le_trans (measure_mono (t := Icc 0 (F x + d)) ?_) (le_of_eq ?_)
    · rintro u ⟨hu, hx⟩
      have h1 := hF hx
      have h2 := (abs_le.1 (hg u hu.1 hu.2)).1
      exact ⟨hu.1.le, by linarith⟩
    · rw [Real.volume_Icc, sub_zero]

end Trng
