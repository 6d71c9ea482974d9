import Verif.Proofs.InvBeta
import Verif.Spec.BetaDists
import Mathlib.Analysis.SpecialFunctions.Gamma.Beta

/-! The distributions built on the incomplete Beta function. -/
namespace Trng
open Set MeasureTheory XR Special BetaSeries Filter Topology

/-- The same distribution with another inverse distribution function. -/
noncomputable def withIcdf (D : ContDist) (G : ℝ → ℝ) : ContDist :=
  { D with icdf := fun x => match x with | fin u => fin (G u) | _ => nan }

/-- The law of a sample whose distribution function at the sample is the deviate up to `d`. -/
theorem law_within {F : ℝ → ℝ} (hF : Monotone F) {I : Set ℝ} (hI : I ⊆ Icc 0 1) (hI' : Ioo 0 1 ⊆ I) {draw : ℝ → XR} {d e x : ℝ} (he : 0 ≤ e) (hd : e ≤ d)
    (hx : F x ≤ 1) (hx0 : 0 ≤ F x) (h1 : ∀ u ∈ I, u < e → draw u ≤ fin x) (h2 : ∀ u ∈ I, e ≤ u → u ≤ 1 - e → ∃ y, draw u = fin y ∧ |F y - u| ≤ d)
    (h3 : ∀ u ∈ I, 1 - e < u → draw u ≤ fin x → F x = 1) :
    ENNReal.ofReal (F x - d) ≤ volume {u : ℝ | u ∈ I ∧ draw u ≤ fin x} ∧ volume {u : ℝ | u ∈ I ∧ draw u ≤ fin x} ≤ ENNReal.ofReal (F x + d) := by
  constructor
  · refine le_trans (le_of_eq ?_) (measure_mono (s := Ioo 0 (F x - d)) ?_)
    · rw [Real.volume_Ioo, sub_zero]
    · intro u hu
      have huI : u ∈ I := hI' ⟨hu.1, by linarith [hu.2]⟩
      refine ⟨huI, ?_⟩
      rcases lt_or_ge u e with h | h
      · exact h1 u huI h
      · obtain ⟨y, ey, hy⟩ := h2 u huI h (by linarith [hu.2])
        rw [ey, fin_le]
        by_contra hc
        have a := hF (not_le.1 hc).le
        have b := (abs_le.1 hy).2
        linarith [hu.2]
  · refine le_trans (measure_mono (t := Icc 0 (F x + d)) ?_) (le_of_eq ?_)
    · rintro u ⟨hu, hux⟩
      refine ⟨(hI hu).1, ?_⟩
      rcases lt_or_ge u e with h | h
      · linarith
      · rcases le_or_gt u (1 - e) with h' | h'
        · obtain ⟨y, ey, hy⟩ := h2 u hu h h'
          rw [ey, fin_le] at hux
          have a := hF hux
          have b := (abs_le.1 hy).1
          linarith
        · have := h3 u hu h' hux
          have := (hI hu).2
          linarith
    · rw [Real.volume_Icc, sub_zero]

/-! ### beta_dist -/

variable {a b : ℝ}

noncomputable def betaF (a b x : ℝ) : ℝ := if x ≤ 0 then 0 else if 1 ≤ x then 1 else Spec.regBeta x a b
noncomputable def betaf (a b x : ℝ) : ℝ := if x < 0 ∨ 1 < x then 0 else dens a b x

noncomputable def quantile (a b : ℝ) (u : ℝ) : ℝ :=
  open Classical in if h : ∃ z, 0 < z ∧ z < 1 ∧ Spec.regBeta z a b = u then h.choose else 0

theorem quantile_spec (ha : 0 < a) (hb : 0 < b) {u : ℝ} (h0 : 0 < u) (h1 : u < 1) :
    0 < quantile a b u ∧ quantile a b u < 1 ∧ Spec.regBeta (quantile a b u) a b = u := by
  have h := exists_quantile ha hb h0 h1
  rw [quantile, dif_pos h]
  exact h.choose_spec

theorem quantile_regBeta (ha : 0 < a) (hb : 0 < b) {x : ℝ} (h0 : 0 < x) (h1 : x < 1) : quantile a b (Spec.regBeta x a b) = x := by
  obtain ⟨q0, q1, e⟩ := quantile_spec ha hb (regBeta_pos ha hb h0 h1) (regBeta_lt_one ha hb h0 h1)
  rcases lt_trichotomy (quantile a b (Spec.regBeta x a b)) x with h | h | h
  · have := regBeta_strictMono ha hb q0 h h1; linarith
  · exact h
  · have := regBeta_strictMono ha hb h0 h q1; linarith

theorem beta_cdf {BI inv : BetaFun} (hBI : Spec.IsBetaI BI a b) (x : ℝ) :
    (betaDist BI inv ⟨fin a, fin b, fin (Spec.beta a b)⟩).cdf (fin x) = fin (betaF a b x) := by
  simp only [betaDist, betaF, ofNat_fin, fin_le, Nat.cast_zero, Nat.cast_one]
  split_ifs with h1 h2
  · rfl
  · rfl
  · push Not at h1 h2
    rw [hBI x h1.le h2.le]; rfl

theorem beta_data {BI inv : BetaFun} (ha : 0 < a) (hb : 0 < b) (hBI : Spec.IsBetaI BI a b) :
    CdfData (withIcdf (betaDist BI inv ⟨fin a, fin b, fin (Spec.beta a b)⟩) (quantile a b)) (betaF a b) (betaf a b) (quantile a b) {0, 1} where
  cdf := beta_cdf (inv := inv) hBI
  pdf x hx := by
    have hx0 : x ≠ 0 := fun h => hx (by simp [h])
    have hx1 : x ≠ 1 := fun h => hx (by simp [h])
    have hN := beta_pos ha hb
    simp only [withIcdf, betaDist, betaf, ofNat_fin, fin_lt, fin_eq, Nat.cast_zero, Nat.cast_one, fin_sub]
    split_ifs with h1 h2
    · rfl
    · rcases h2 with ⟨e, _⟩ | ⟨e, _⟩
      · exact absurd e hx0
      · exact absurd e hx1
    · push Not at h1
      have p0 : 0 < x := lt_of_le_of_ne h1.1 (Ne.symm hx0)
      have p1 : 0 < 1 - x := by
        have := lt_of_le_of_ne h1.2 hx1; linarith
      rw [pow_fin p0, pow_fin p1, fin_div hN.ne', fin_mul, fin_mul, dens]
      congr 1; ring
  icdf u _ _ := rfl
  lower := Or.inr ⟨0, by simp [withIcdf, betaDist]⟩
  upper := Or.inr ⟨1, by simp [withIcdf, betaDist]⟩
  order := by simp [withIcdf, betaDist]
  below x h := if_pos (by simpa [withIcdf, betaDist] using h)
  above x h := by
    have h1 : 1 ≤ x := by simpa [withIcdf, betaDist] using h
    rw [betaF, if_neg (by linarith), if_pos h1]
  mono x y h1 hxy h2 := by
    have p0 : 0 < x := by simpa [withIcdf, betaDist] using h1
    have p1 : y < 1 := by simpa [withIcdf, betaDist] using h2
    rw [betaF, betaF, if_neg (by linarith), if_neg (by linarith), if_neg (by linarith), if_neg (by linarith)]
    rcases eq_or_lt_of_le hxy with e | hlt
    · rw [e]
    · exact (regBeta_strictMono ha hb p0 hlt p1).le
  right u h0 h1 := by
    obtain ⟨q0, q1, e⟩ := quantile_spec ha hb h0 h1
    rw [betaF, if_neg (by linarith), if_neg (by linarith), e]
  left x h1 h2 := by
    have p0 : 0 < x := by simpa [withIcdf, betaDist] using h1
    have p1 : x < 1 := by simpa [withIcdf, betaDist] using h2
    rw [betaF, if_neg (by linarith), if_neg (by linarith)]
    exact ⟨regBeta_pos ha hb p0 p1, regBeta_lt_one ha hb p0 p1, quantile_regBeta ha hb p0 p1⟩
  finite := by simp
  deriv x hx := by
    have hx0 : x ≠ 0 := fun h => hx (by simp [h])
    have hx1 : x ≠ 1 := fun h => hx (by simp [h])
    rcases lt_or_gt_of_ne hx0 with h | h
    · rw [betaf, if_pos (Or.inl h)]
      exact hasDerivAt_left h (hasDerivAt_const x 0) fun y hy => if_pos hy.le
    · rcases lt_or_gt_of_ne hx1 with h' | h'
      · rw [betaf, if_neg (by push Not; exact ⟨h.le, h'.le⟩)]
        exact hasDerivAt_between h h' (hasDerivAt_regBeta ha h h') fun y y0 y1 => by
          rw [betaF, if_neg (by linarith), if_neg (by linarith)]
      · rw [betaf, if_pos (Or.inr h')]
        exact hasDerivAt_right h' (hasDerivAt_const x 1) fun y hy => by
          rw [betaF, if_neg (by linarith), if_pos hy.le]
  nonneg x hx := by
    rw [betaf]
    split_ifs with h
    · exact le_rfl
    · push Not at h
      exact div_nonneg (mul_nonneg (Real.rpow_nonneg (by linarith) _) (Real.rpow_nonneg h.1 _)) (beta_pos ha hb).le

theorem mk'_fin (L : Limits) (ha : 0 < a) (hb : 0 < b) : BetaParam.mk' L (fin a) (fin b) = ⟨fin a, fin b, fin (Spec.beta a b)⟩ := by
  rw [BetaParam.mk', beta_fin L ha hb]

theorem betaF_eq (ha : 0 < a) (hb : 0 < b) {t : ℝ} (h0 : 0 ≤ t) (h1 : t ≤ 1) : betaF a b t = Spec.regBeta t a b := by
  rw [betaF]
  split_ifs with h2 h3
  · rw [le_antisymm h2 h0, regBeta_zero]
  · rw [le_antisymm h1 h3, regBeta_one ha hb]
  · rfl

theorem beta_inverse {BI inv : BetaFun} {d e : ℝ} (ha : 0 < a) (hb : 0 < b) (hBI : Spec.IsBetaI BI a b) (he : 0 < e) (hd : e ≤ d)
    (hinv : Spec.InvertsBeta inv a b d e) : Spec.InverseOn (betaDist BI inv ⟨fin a, fin b, fin (Spec.beta a b)⟩) d e := by
  have D := beta_data (BI := BI) (inv := inv) ha hb hBI
  choose! t ht hq hlo hhi hmid using hinv
  have ht0 : ∀ u, 0 ≤ u → u ≤ 1 → 0 ≤ t u ∧ t u ≤ 1 := by
    intro u h0 h1
    rcases lt_or_ge u e with h | h
    · rw [hlo u h0 h1 h]; norm_num
    · rcases le_or_gt u (1 - e) with h' | h'
      · exact ⟨(hmid u h0 h1 h h').1.le, (hmid u h0 h1 h h').2.le⟩
      · rw [hhi u h0 h1 h']; norm_num
  refine ⟨fun u h0 h1 => ?_, fun u hu => ?_, fun x hx => ⟨_, beta_cdf hBI x, ?_⟩⟩
  · have hm := hmid u (by linarith) (by linarith) h0 h1
    refine ⟨t u, _, ?_, ?_, ?_, beta_cdf hBI _, ?_⟩
    · simp only [betaDist, ofNat_fin, fin_lt, fin_eq, Nat.cast_zero, Nat.cast_one]
      rw [if_neg (by push Not; exact ⟨by linarith, by linarith⟩), if_neg (by linarith), if_neg (by linarith), ht u (by linarith) (by linarith)]
      rfl
    · simp [betaDist, hm.1.le]
    · simp [betaDist, hm.2.le]
    · rw [betaF_eq ha hb hm.1.le hm.2.le]
      exact hq u (by linarith) (by linarith)
  · have hm := ht0 u hu.1.le hu.2.le
    simp only [betaDist, ht u hu.1.le hu.2.le, Option.getD_some, ofNat_fin, fin_le, Nat.cast_zero, Nat.cast_one]
    exact hm
  · have hx0 : 0 ≤ x := by simpa [betaDist] using hx
    refine law_within D.monotone (I := Ioo 0 1) Ioo_subset_Icc_self subset_rfl he.le hd (D.range x).2 (D.range x).1 ?_ ?_ ?_
    · intro u hu h
      simp only [betaDist, ht u hu.1.le hu.2.le, Option.getD_some, fin_le]
      rw [hlo u hu.1.le hu.2.le h]; exact hx0
    · intro u hu h h'
      have hm := hmid u hu.1.le hu.2.le h h'
      refine ⟨t u, ?_, ?_⟩
      · simp only [betaDist, ht u hu.1.le hu.2.le, Option.getD_some]
      · rw [betaF_eq ha hb hm.1.le hm.2.le]
        exact hq u hu.1.le hu.2.le
    · intro u hu h hux
      simp only [betaDist, ht u hu.1.le hu.2.le, Option.getD_some, fin_le] at hux
      rw [hhi u hu.1.le hu.2.le h] at hux
      rw [betaF, if_neg (by linarith), if_pos hux]

/-! ### student_t_dist -/

/-- The argument of the incomplete Beta function. -/
noncomputable def studentT (v x : ℝ) : ℝ := (x + Real.sqrt (x * x + v)) / (2 * Real.sqrt (x * x + v))
noncomputable def studentX (v t : ℝ) : ℝ := Real.sqrt (v / (t * (1 - t))) * (t - 1 / 2)

section
variable {v : ℝ}

theorem student_s (hv : 0 < v) (x : ℝ) : 0 < Real.sqrt (x * x + v) ∧ |x| < Real.sqrt (x * x + v) := by
  have h : 0 < x * x + v := by nlinarith [mul_self_nonneg x]
  refine ⟨Real.sqrt_pos.2 h, ?_⟩
  rw [← Real.sqrt_sq_eq_abs]
  exact Real.sqrt_lt_sqrt (sq_nonneg x) (by nlinarith)

theorem studentT_range (hv : 0 < v) (x : ℝ) : 0 < studentT v x ∧ studentT v x < 1 := by
  obtain ⟨h, hx⟩ := student_s hv x
  rw [abs_lt] at hx
  constructor
  · exact div_pos (by linarith) (by linarith)
  · rw [studentT, div_lt_one (by linarith)]; linarith

theorem studentT_X (hv : 0 < v) {t : ℝ} (h0 : 0 < t) (h1 : t < 1) : studentT v (studentX v t) = t := by
  have h : 0 < t * (1 - t) := mul_pos h0 (by linarith)
  set r := Real.sqrt (v / (t * (1 - t))) with hr
  have hr0 : 0 < r := Real.sqrt_pos.2 (by positivity)
  have hr2 : r ^ 2 = v / (t * (1 - t)) := Real.sq_sqrt (by positivity)
  have hv2 : v = r ^ 2 * (t * (1 - t)) := by rw [hr2, div_mul_cancel₀ _ h.ne']
  have hs : Real.sqrt (studentX v t * studentX v t + v) = r / 2 := by
    rw [studentX, ← hr]
    rw [show r * (t - 1 / 2) * (r * (t - 1 / 2)) + v = (r / 2) ^ 2 by rw [hv2]; ring]
    exact Real.sqrt_sq (by linarith)
  rw [studentT, hs, studentX, ← hr]
  field_simp; ring

theorem studentX_T (hv : 0 < v) (x : ℝ) : studentX v (studentT v x) = x := by
  obtain ⟨h, hx⟩ := student_s hv x
  have hs2 : Real.sqrt (x * x + v) ^ 2 = x * x + v := Real.sq_sqrt (by nlinarith [mul_self_nonneg x])
  set s := Real.sqrt (x * x + v) with hs
  have e1 : studentT v x * (1 - studentT v x) = v / (2 * s) ^ 2 := by
    rw [studentT, ← hs]
    field_simp
    nlinarith
  have e2 : v / (v / (2 * s) ^ 2) = (2 * s) ^ 2 := by field_simp
  rw [studentX, e1, e2, Real.sqrt_sq (by linarith), studentT, ← hs]
  field_simp; ring

theorem hasDerivAt_studentT (hv : 0 < v) (x : ℝ) : HasDerivAt (studentT v) (v / (2 * Real.sqrt (x * x + v) ^ 3)) x := by
  obtain ⟨h, hx⟩ := student_s hv x
  have hp : 0 < x * x + v := by nlinarith [mul_self_nonneg x]
  have hs2 : Real.sqrt (x * x + v) ^ 2 = x * x + v := Real.sq_sqrt hp.le
  have hd : HasDerivAt (fun y : ℝ => Real.sqrt (y * y + v)) ((1 * x + x * 1) / (2 * Real.sqrt (x * x + v))) x :=
    HasDerivAt.sqrt (((hasDerivAt_id x).mul (hasDerivAt_id x)).add_const v) hp.ne'
  have := ((hasDerivAt_id x).add hd).div (hd.const_mul 2) (by positivity)
  refine this.congr_deriv ?_
  set s := Real.sqrt (x * x + v) with hs
  simp only [id, Pi.add_apply, ← hs]
  rw [div_eq_div_iff (by positivity) (by positivity)]
  have hv' : v = s ^ 2 - x * x := by linarith
  rw [hv']
  field_simp
  ring

theorem studentT_strictMono (hv : 0 < v) : StrictMono (studentT v) := by
  refine strictMono_of_deriv_pos fun x => ?_
  rw [(hasDerivAt_studentT hv x).deriv]
  have := (student_s hv x).1
  positivity

theorem studentT_one_sub (hv : 0 < v) (x : ℝ) : studentT v x * (1 - studentT v x) = v / (4 * Real.sqrt (x * x + v) ^ 2) := by
  obtain ⟨h, hx⟩ := student_s hv x
  have hs2 : Real.sqrt (x * x + v) ^ 2 = x * x + v := Real.sq_sqrt (by nlinarith [mul_self_nonneg x])
  rw [studentT]
  set s := Real.sqrt (x * x + v) with hs
  field_simp
  nlinarith

noncomputable def studentF (v x : ℝ) : ℝ := Spec.regBeta (studentT v x) (v / 2) (v / 2)
noncomputable def studentf (v x : ℝ) : ℝ := dens (v / 2) (v / 2) (studentT v x) * (v / (2 * Real.sqrt (x * x + v) ^ 3))

/-- The density of the code. -/
theorem studentf_eq (hv : 0 < v) (x : ℝ) :
    studentf v x = Real.exp (Real.log (Real.Gamma ((v + 1) / 2)) - Real.log (Real.Gamma (v / 2))) / Real.sqrt (Real.pi * v) * (1 + x * x / v) ^ ((v + 1) / -2) := by
  obtain ⟨t0, t1⟩ := studentT_range hv x
  have hv2 : 0 < v / 2 := by linarith
  have g1 := Real.Gamma_pos_of_pos hv
  have g2 := Real.Gamma_pos_of_pos hv2
  have g3 := Real.Gamma_pos_of_pos (show 0 < (v + 1) / 2 by linarith)
  have hp : 0 < x * x + v := by nlinarith [mul_self_nonneg x]
  have hs := (student_s hv x).1
  have hs2 : Real.sqrt (x * x + v) ^ 2 = x * x + v := Real.sq_sqrt hp.le
  have leg := Real.Gamma_mul_Gamma_add_half (v / 2)
  rw [show v / 2 + 1 / 2 = (v + 1) / 2 by ring, show 2 * (v / 2) = v by ring] at leg
  have e1 : dens (v / 2) (v / 2) (studentT v x) = (v / (4 * Real.sqrt (x * x + v) ^ 2)) ^ (v / 2 - 1) / (Real.Gamma (v / 2) * Real.Gamma (v / 2) / Real.Gamma v) := by
    rw [dens, beta_eq hv2 hv2, ← Real.mul_rpow (by linarith) t0.le, mul_comm (1 - _), studentT_one_sub hv, show v / 2 + v / 2 = v by ring]
  have e2 : 1 + x * x / v = Real.sqrt (x * x + v) ^ 2 / v := by rw [hs2]; field_simp; ring
  rw [studentf, e1, e2, Real.exp_sub, Real.exp_log g3, Real.exp_log g2]
  set s := Real.sqrt (x * x + v) with hsdef
  have hG : Real.Gamma v = Real.Gamma (v / 2) * Real.Gamma ((v + 1) / 2) / (2 ^ (1 - v) * Real.sqrt Real.pi) := by
    rw [leg]; field_simp
  rw [hG, Real.sqrt_mul Real.pi_pos.le]
  have k1 : (v / (4 * s ^ 2)) ^ (v / 2 - 1) = Real.exp ((Real.log v - 2 * Real.log 2 - 2 * Real.log s) * (v / 2 - 1)) := by
    rw [Real.rpow_def_of_pos (by positivity), Real.log_div hv.ne' (by positivity), Real.log_mul (by norm_num) (by positivity), Real.log_pow,
      show (4 : ℝ) = 2 ^ 2 by norm_num, Real.log_pow]
    congr 1; push_cast; ring
  have k2 : (s ^ 2 / v) ^ ((v + 1) / -2) = Real.exp ((2 * Real.log s - Real.log v) * ((v + 1) / -2)) := by
    rw [Real.rpow_def_of_pos (by positivity), Real.log_div (by positivity) hv.ne', Real.log_pow]
    congr 1
  have k3 : (2 : ℝ) ^ (1 - v) = Real.exp (Real.log 2 * (1 - v)) := Real.rpow_def_of_pos (by norm_num) _
  have k4 : Real.sqrt v = Real.exp (Real.log v / 2) := by
    rw [← Real.exp_log (Real.sqrt_pos.2 hv), Real.log_sqrt hv.le]
  have k5 : s ^ 3 = Real.exp (3 * Real.log s) := by
    rw [← Real.exp_log (pow_pos hs 3), Real.log_pow]; norm_num
  have k6 : v = Real.exp (Real.log v) := (Real.exp_log hv).symm
  have k7 : (2 : ℝ) = Real.exp (Real.log 2) := (Real.exp_log (by norm_num)).symm
  have key : Real.exp ((Real.log v - 2 * Real.log 2 - 2 * Real.log s) * (v / 2 - 1)) * Real.exp (Real.log v) * Real.exp (Real.log v / 2) =
      Real.exp ((2 * Real.log s - Real.log v) * ((v + 1) / -2)) * (Real.exp (Real.log 2 * (1 - v)) * Real.exp (Real.log 2) * Real.exp (3 * Real.log s)) := by
    simp only [← Real.exp_add]
    congr 1; ring
  rw [← k1, ← k2, ← k3, ← k4, ← k5, ← k6, ← k7] at key
  have hsv := Real.sqrt_pos.2 hv
  have hsp := Real.sqrt_pos.2 Real.pi_pos
  generalize (v / (4 * s ^ 2)) ^ (v / 2 - 1) = A at key ⊢
  generalize (s ^ 2 / v) ^ ((v + 1) / -2) = B at key ⊢
  field_simp
  linear_combination key

end

theorem student_norm (L : Limits) {n : ℤ} (hn : 0 < n) : Special.beta L (ofInt n / 2) (ofInt n / 2) = fin (Spec.beta ((n : ℝ) / 2) ((n : ℝ) / 2)) ∧ ofInt n / 2 = fin ((n : ℝ) / 2) := by
  have hv : (0 : ℝ) < n := by exact_mod_cast hn
  have e : ofInt n / 2 = fin ((n : ℝ) / 2) := by
    rw [ofNat_fin, show ofInt n = fin (n : ℝ) from rfl, fin_div (by norm_num)]; norm_num
  rw [e]
  exact ⟨beta_fin L (by linarith) (by linarith), rfl⟩

theorem student_cdf (L : Limits) {BI inv : BetaFun} {n : ℤ} (hn : 0 < n) (hBI : Spec.IsBetaI BI (n / 2) (n / 2)) (x : ℝ) :
    (studentDist L BI inv n).cdf (fin x) = fin (studentF n x) := by
  have hv : (0 : ℝ) < n := by exact_mod_cast hn
  obtain ⟨e1, e2⟩ := student_norm L hn
  obtain ⟨h, hx⟩ := student_s hv x
  obtain ⟨t0, t1⟩ := studentT_range hv x
  have hp : 0 ≤ x * x + (n : ℝ) := by nlinarith [mul_self_nonneg x]
  have e3 : (fin x + sqrt (fin x * fin x + ofInt n)) / (2 * sqrt (fin x * fin x + ofInt n)) = fin (studentT n x) := by
    rw [show ofInt n = fin (n : ℝ) from rfl, fin_mul, fin_add, sqrt_fin hp, fin_add, ofNat_fin, fin_mul, fin_div (by push_cast; positivity), studentT]
    norm_num
  simp only [studentDist]
  rw [e1, e2, e3, hBI _ t0.le t1.le]
  rfl

theorem student_data (L : Limits) {BI inv : BetaFun} {n : ℤ} (hn : 0 < n) (hBI : Spec.IsBetaI BI (n / 2) (n / 2)) :
    CdfData (withIcdf (studentDist L BI inv n) fun u => studentX n (quantile (n / 2) (n / 2) u)) (studentF n) (studentf n)
      (fun u => studentX n (quantile (n / 2) (n / 2) u)) ∅ := by
  have hv : (0 : ℝ) < n := by exact_mod_cast hn
  have hv2 : (0 : ℝ) < n / 2 := by linarith
  have hmono : Monotone (studentF n) := by
    intro x y hxy
    rcases eq_or_lt_of_le hxy with e | h
    · rw [e]
    · exact (regBeta_strictMono hv2 hv2 (studentT_range hv x).1 (studentT_strictMono hv h) (studentT_range hv y).2).le
  refine ⟨student_cdf L (inv := inv) hn hBI, ?_, fun _ _ _ => rfl, Or.inl rfl, Or.inl rfl, trivial, fun x h => ?_, fun x h => ?_,
    fun x y _ h _ => hmono h, ?_, ?_, finite_empty, ?_, ?_⟩
  · intro x _
    have hp : 0 < 1 + x * x / n := by have := mul_self_nonneg x; positivity
    have hpi : 0 < Real.pi * n := mul_pos Real.pi_pos hv
    rw [studentf_eq hv]
    simp only [withIcdf, studentDist]
    rw [(student_norm L hn).2, ofNat_fin, ofNat_fin, show ofInt n = fin (n : ℝ) from rfl, show ofInt (n + 1) = fin ((n + 1 : ℤ) : ℝ) from rfl,
      neg_fin, fin_mul, fin_mul, fin_div hv.ne', fin_div (by norm_num), fin_div (by norm_num), fin_add, lnGamma_fin hv2, lnGamma_fin (by push_cast; linarith), fin_sub,
      exp_fin, sqrt_fin hpi.le, fin_div (Real.sqrt_pos.2 hpi).ne']
    push_cast
    rw [pow_fin hp, fin_mul]
  · exact absurd h (not_fin_le_ninf x)
  · exact absurd h (not_pinf_le_fin x)
  · intro u h0 h1
    obtain ⟨q0, q1, e⟩ := quantile_spec hv2 hv2 h0 h1
    simp only [studentF]
    rw [studentT_X hv q0 q1, e]
  · intro x _ _
    obtain ⟨t0, t1⟩ := studentT_range hv x
    refine ⟨regBeta_pos hv2 hv2 t0 t1, regBeta_lt_one hv2 hv2 t0 t1, ?_⟩
    simp only [studentF]
    rw [quantile_regBeta hv2 hv2 t0 t1, studentX_T hv]
  · intro x _
    obtain ⟨t0, t1⟩ := studentT_range hv x
    exact (hasDerivAt_regBeta hv2 t0 t1).comp x (hasDerivAt_studentT hv x)
  · intro x _
    obtain ⟨t0, t1⟩ := studentT_range hv x
    have := (student_s hv x).1
    have := dens_pos hv2 hv2 t0 t1
    rw [studentf]
    positivity

theorem student_icdf (L : Limits) {inv : BetaFun} {n : ℤ} (hn : 0 < n) {u t : ℝ}
    (h : inv (fin u) (fin (n / 2)) (fin (n / 2)) (fin (Spec.beta (n / 2) (n / 2))) = some (fin t)) :
    (t = 0 → studentIcdf L inv n (fin u) = ninf) ∧ (t = 1 → studentIcdf L inv n (fin u) = pinf) ∧
      (0 < t → t < 1 → studentIcdf L inv n (fin u) = fin (studentX n t)) := by
  have hv : (0 : ℝ) < n := by exact_mod_cast hn
  obtain ⟨e1, e2⟩ := student_norm L hn
  rw [studentIcdf, e1, e2, h]
  simp only [show ofInt n = fin (n : ℝ) from rfl, ofNat_fin, fin_sub, fin_mul, Nat.cast_one, Nat.cast_ofNat]
  refine ⟨fun h => ?_, fun h => ?_, fun h0 h1 => ?_⟩
  · have ez : t * (1 - t) = 0 := by rw [h]; ring
    rw [ez, show fin (n : ℝ) / fin 0 = infSign n from if_pos rfl, infSign_pos hv, h, fin_div (by norm_num), fin_sub]
    show pinf * fin _ = _
    rw [pinf_mul_fin, infSign_neg (by norm_num)]
  · have ez : t * (1 - t) = 0 := by rw [h]; ring
    rw [ez, show fin (n : ℝ) / fin 0 = infSign n from if_pos rfl, infSign_pos hv, h, fin_div (by norm_num), fin_sub]
    show pinf * fin _ = _
    rw [pinf_mul_fin, infSign_pos (by norm_num)]
  · have := mul_pos h0 (sub_pos.2 h1)
    rw [fin_div this.ne', sqrt_fin (by positivity), fin_div (by norm_num), fin_sub, fin_mul, studentX]

theorem student_inverse (L : Limits) {BI inv : BetaFun} {n : ℤ} {d e : ℝ} (hn : 0 < n) (hBI : Spec.IsBetaI BI (n / 2) (n / 2)) (he : 0 < e) (hd : e ≤ d)
    (hinv : Spec.InvertsBeta inv (n / 2) (n / 2) d e) : Spec.InverseOn (studentDist L BI inv n) d e := by
  have hv : (0 : ℝ) < n := by exact_mod_cast hn
  have D := student_data L (BI := BI) (inv := inv) hn hBI
  choose! t ht hq hlo hhi hmid using hinv
  have hmid' : ∀ u, e ≤ u → u ≤ 1 - e → ∃ y, studentIcdf L inv n (fin u) = fin y ∧ |studentF n y - u| ≤ d := by
    intro u h0 h1
    have hm := hmid u (by linarith) (by linarith) h0 h1
    refine ⟨_, (student_icdf L hn (ht u (by linarith) (by linarith))).2.2 hm.1 hm.2, ?_⟩
    rw [studentF, studentT_X hv hm.1 hm.2]
    exact hq u (by linarith) (by linarith)
  refine ⟨fun u h0 h1 => ?_, fun u hu => ?_, fun x hx => ⟨_, student_cdf L hn hBI x, ?_⟩⟩
  · obtain ⟨y, ey, hy⟩ := hmid' u h0 h1
    refine ⟨y, _, ?_, ?_, ?_, student_cdf L hn hBI _, hy⟩
    · simp only [studentDist, ofNat_fin, fin_le, fin_eq, Nat.cast_zero, Nat.cast_one]
      rw [if_neg (by push Not; exact ⟨by linarith, by linarith⟩), if_neg (by linarith), if_neg (by linarith), ey]
    · exact ninf_le_fin _
    · exact fin_le_pinf _
  · rcases lt_or_ge u e with h | h
    · simp only [studentDist]
      rw [(student_icdf L hn (ht u hu.1.le hu.2.le)).1 (hlo u hu.1.le hu.2.le h)]
      exact ⟨trivial, trivial⟩
    · rcases le_or_gt u (1 - e) with h' | h'
      · obtain ⟨y, ey, _⟩ := hmid' u h h'
        simp only [studentDist, ey]
        exact ⟨trivial, trivial⟩
      · simp only [studentDist]
        rw [(student_icdf L hn (ht u hu.1.le hu.2.le)).2.1 (hhi u hu.1.le hu.2.le h')]
        exact ⟨trivial, trivial⟩
  · refine law_within D.monotone (I := Ioo 0 1) Ioo_subset_Icc_self subset_rfl he.le hd (D.range x).2 (D.range x).1 ?_ ?_ ?_
    · intro u hu h
      simp only [studentDist]
      rw [(student_icdf L hn (ht u hu.1.le hu.2.le)).1 (hlo u hu.1.le hu.2.le h)]
      exact trivial
    · intro u hu h h'
      exact hmid' u h h'
    · intro u hu h hux
      simp only [studentDist] at hux
      rw [(student_icdf L hn (ht u hu.1.le hu.2.le)).2.1 (hhi u hu.1.le hu.2.le h)] at hux
      exact absurd hux (not_pinf_le_fin x)

/-! ### snedecor_f_dist -/

noncomputable def snedT (n m x : ℝ) : ℝ := n * x / (m + n * x)
noncomputable def snedX (n m t : ℝ) : ℝ := t / (1 - t) * m / n

section
variable {n m : ℝ}

theorem snedT_range (hn : 0 < n) (hm : 0 < m) {x : ℝ} (hx : 0 < x) : 0 < snedT n m x ∧ snedT n m x < 1 := by
  have := mul_pos hn hx
  exact ⟨by rw [snedT]; positivity, by rw [snedT, div_lt_one (by linarith)]; linarith⟩

theorem snedX_pos (hn : 0 < n) (hm : 0 < m) {t : ℝ} (h0 : 0 < t) (h1 : t < 1) : 0 < snedX n m t := by
  have := sub_pos.2 h1
  rw [snedX]; positivity

theorem snedT_X (hn : 0 < n) (hm : 0 < m) {t : ℝ} (h1 : t < 1) : snedT n m (snedX n m t) = t := by
  have := (sub_pos.2 h1).ne'
  have e : m + n * snedX n m t = m / (1 - t) := by rw [snedX]; field_simp; ring
  rw [snedT, e, snedX]; field_simp

theorem snedX_T (hn : 0 < n) (hm : 0 < m) {x : ℝ} (hx : 0 < x) : snedX n m (snedT n m x) = x := by
  have h : 0 < m + n * x := by positivity
  have e : 1 - snedT n m x = m / (m + n * x) := by rw [snedT]; field_simp; ring
  rw [snedX, e, snedT]; field_simp

theorem hasDerivAt_snedT (hn : 0 < n) (hm : 0 < m) {x : ℝ} (hx : 0 < x) : HasDerivAt (snedT n m) (n * m / (m + n * x) ^ 2) x := by
  have h : 0 < m + n * x := by positivity
  have hd : HasDerivAt (fun y : ℝ => n * y) (n * 1) x := (hasDerivAt_id x).const_mul n
  refine (hd.div (hd.const_add m) h.ne').congr_deriv ?_
  congr 1; ring

noncomputable def snedF (n m x : ℝ) : ℝ := if x ≤ 0 then 0 else Spec.regBeta (snedT n m x) (n / 2) (m / 2)
noncomputable def snedf (n m x : ℝ) : ℝ := if x ≤ 0 then 0 else dens (n / 2) (m / 2) (snedT n m x) * (n * m / (m + n * x) ^ 2)

/-- The density of the code. -/
theorem snedf_eq (hn : 0 < n) (hm : 0 < m) {x : ℝ} (hx : 0 < x) :
    snedf n m x = Real.exp (1 / 2 * Real.log (n / m) * n + Real.log x * (1 / 2 * n - 1) - Real.log (1 + n * x / m) * (1 / 2 * n + 1 / 2 * m) -
      Real.log (Real.Gamma (1 / 2 * n)) - Real.log (Real.Gamma (1 / 2 * m)) + Real.log (Real.Gamma (1 / 2 * (n + m)))) := by
  have h : 0 < m + n * x := by positivity
  obtain ⟨t0, t1⟩ := snedT_range hn hm hx
  have hn2 : 0 < 1 / 2 * n := by linarith
  have hm2 : 0 < 1 / 2 * m := by linarith
  have g1 := Real.Gamma_pos_of_pos hn2
  have g2 := Real.Gamma_pos_of_pos hm2
  have g3 := Real.Gamma_pos_of_pos (show 0 < 1 / 2 * (n + m) by linarith)
  have e : 1 - snedT n m x = m / (m + n * x) := by rw [snedT]; field_simp; ring
  have e2 : 1 + n * x / m = (m + n * x) / m := by field_simp
  have hd := dens_pos (show 0 < n / 2 by linarith) (show 0 < m / 2 by linarith) t0 t1
  rw [snedf, if_neg (by linarith), ← Real.exp_log (show 0 < dens (n / 2) (m / 2) (snedT n m x) * (n * m / (m + n * x) ^ 2) by positivity)]
  congr 1
  rw [dens, beta_eq (by linarith) (by linarith), e, snedT, e2, show n / 2 = 1 / 2 * n by ring, show m / 2 = 1 / 2 * m by ring, show 1 / 2 * n + 1 / 2 * m = 1 / 2 * (n + m) by ring,
    Real.log_mul (by positivity) (by positivity), Real.log_div (by positivity) (by positivity), Real.log_mul (by positivity) (by positivity),
    Real.log_rpow (by positivity), Real.log_rpow (by positivity), Real.log_div hm.ne' h.ne',
    Real.log_div (mul_pos hn hx).ne' h.ne', Real.log_mul hn.ne' hx.ne', Real.log_div (mul_pos g1 g2).ne' g3.ne', Real.log_mul g1.ne' g2.ne',
    Real.log_div (mul_pos hn hm).ne' (pow_pos h 2).ne', Real.log_mul hn.ne' hm.ne', Real.log_pow, Real.log_div hn.ne' hm.ne', Real.log_div h.ne' hm.ne']
  push_cast
  ring

end

theorem sned_norm (L : Limits) {n m : ℤ} (hn : 0 < n) (hm : 0 < m) :
    Special.beta L (1 / 2 * ofInt n) (1 / 2 * ofInt m) = fin (Spec.beta ((n : ℝ) / 2) ((m : ℝ) / 2)) ∧ 1 / 2 * ofInt n = fin ((n : ℝ) / 2) ∧ 1 / 2 * ofInt m = fin ((m : ℝ) / 2) := by
  have hv : (0 : ℝ) < n := by exact_mod_cast hn
  have hw : (0 : ℝ) < m := by exact_mod_cast hm
  have e : ∀ k : ℤ, 1 / 2 * ofInt k = fin ((k : ℝ) / 2) := by
    intro k
    rw [ofNat_fin, ofNat_fin, show ofInt k = fin (k : ℝ) from rfl, fin_div (by norm_num), fin_mul]
    congr 1; push_cast; ring
  rw [e, e]
  exact ⟨beta_fin L (by linarith) (by linarith), rfl, rfl⟩

theorem sned_cdf (L : Limits) {BI inv : BetaFun} {n m : ℤ} (hn : 0 < n) (hm : 0 < m) (hBI : Spec.IsBetaI BI (n / 2) (m / 2)) {x : ℝ} (hx : 0 ≤ x) :
    (snedecorDist L BI inv n m).cdf (fin x) = fin (snedF n m x) := by
  have hv : (0 : ℝ) < n := by exact_mod_cast hn
  have hw : (0 : ℝ) < m := by exact_mod_cast hm
  obtain ⟨e1, e2, e3⟩ := sned_norm L hn hm
  have hp : 0 < (m : ℝ) + n * x := by positivity
  have e4 : ofInt n * fin x / (ofInt m + ofInt n * fin x) = fin (snedT n m x) := by
    rw [show ofInt n = fin (n : ℝ) from rfl, show ofInt m = fin (m : ℝ) from rfl, fin_mul, fin_add, fin_div hp.ne', snedT]
  simp only [snedecorDist]
  rw [e1, e2, e3, e4, snedF]
  rcases eq_or_lt_of_le hx with e | h
  · rw [if_pos e.ge, ← e, show snedT n m 0 = 0 by simp [snedT], hBI 0 le_rfl zero_le_one, regBeta_zero]; rfl
  · obtain ⟨t0, t1⟩ := snedT_range hv hw h
    rw [if_neg (by linarith), hBI _ t0.le t1.le]; rfl

theorem sned_pdf (L : Limits) {BI inv : BetaFun} {n m : ℤ} (hn : 0 < n) (hm : 0 < m) {x : ℝ} (hx : 0 < x) :
    (snedecorDist L BI inv n m).pdf (fin x) = fin (snedf n m x) := by
  have hv : (0 : ℝ) < n := by exact_mod_cast hn
  have hw : (0 : ℝ) < m := by exact_mod_cast hm
  rw [snedf_eq hv hw hx]
  simp only [snedecorDist, ofNat_fin, Nat.cast_one, Nat.cast_ofNat, show ofInt n = fin (n : ℝ) from rfl, show ofInt m = fin (m : ℝ) from rfl]
  have h2 : (2 : ℝ) ≠ 0 := by norm_num
  have hp : 0 < 1 + (n : ℝ) * x / m := by positivity
  simp only [fin_div hw.ne', fin_div h2, fin_mul, fin_add, fin_sub, ln_fin hx, ln_fin hp, ln_fin (div_pos hv hw), exp_fin,
    lnGamma_fin (show 0 < 1 / 2 * (n : ℝ) by linarith), lnGamma_fin (show 0 < 1 / 2 * (m : ℝ) by linarith), lnGamma_fin (show 0 < 1 / 2 * ((n : ℝ) + m) by linarith)]

/-- snedecor_f_dist with the right values for negative arguments. -/
noncomputable def snedClipped (L : Limits) (BI inv : BetaFun) (n m : ℤ) : ContDist :=
  { snedecorDist L BI inv n m with
    cdf := fun x => match x with | fin x => fin (snedF n m x) | _ => nan
    pdf := fun x => match x with | fin x => fin (snedf n m x) | _ => nan
    icdf := fun x => match x with | fin u => fin (snedX n m (quantile (n / 2) (m / 2) u)) | _ => nan }

theorem sned_data (L : Limits) {BI inv : BetaFun} {n m : ℤ} (hn : 0 < n) (hm : 0 < m) :
    CdfData (snedClipped L BI inv n m) (snedF n m) (snedf n m) (fun u => snedX n m (quantile (n / 2) (m / 2) u)) {0} := by
  have hv : (0 : ℝ) < n := by exact_mod_cast hn
  have hw : (0 : ℝ) < m := by exact_mod_cast hm
  have hv2 : (0 : ℝ) < n / 2 := by linarith
  have hw2 : (0 : ℝ) < m / 2 := by linarith
  have hmin : (snedClipped L BI inv n m).min = fin 0 := by simp [snedClipped, snedecorDist]
  refine ⟨fun _ => rfl, fun _ _ => rfl, fun _ _ _ => rfl, Or.inr ⟨0, hmin⟩, Or.inl rfl, ?_, fun x h => ?_, fun x h => ?_, ?_, ?_, ?_, finite_singleton _, ?_, ?_⟩
  · rw [hmin]; trivial
  · rw [hmin, fin_le] at h
    exact if_pos h
  · exact absurd h (not_pinf_le_fin x)
  · intro x y h hxy _
    rw [hmin, fin_lt] at h
    rw [snedF, snedF, if_neg (by linarith), if_neg (by linarith)]
    rcases eq_or_lt_of_le hxy with e | h'
    · rw [e]
    · refine (regBeta_strictMono hv2 hw2 (snedT_range hv hw h).1 ?_ (snedT_range hv hw (h.trans h')).2).le
      have h1 : 0 < (m : ℝ) + n * x := by positivity
      have h2 : 0 < (m : ℝ) + n * y := by have := h.trans h'; positivity
      rw [snedT, snedT, div_lt_div_iff₀ h1 h2]
      nlinarith [mul_pos hv hw]
  · intro u h0 h1
    obtain ⟨q0, q1, e⟩ := quantile_spec hv2 hw2 h0 h1
    have := snedX_pos hv hw q0 q1
    rw [snedF, if_neg (by linarith), snedT_X hv hw q1, e]
  · intro x h _
    rw [hmin, fin_lt] at h
    obtain ⟨t0, t1⟩ := snedT_range hv hw h
    rw [snedF, if_neg (by linarith)]
    refine ⟨regBeta_pos hv2 hw2 t0 t1, regBeta_lt_one hv2 hw2 t0 t1, ?_⟩
    rw [quantile_regBeta hv2 hw2 t0 t1, snedX_T hv hw h]
  · intro x hx
    rcases lt_or_gt_of_ne (show x ≠ 0 from hx) with h | h
    · rw [snedf, if_pos h.le]
      exact hasDerivAt_left h (hasDerivAt_const x 0) fun y hy => if_pos hy.le
    · obtain ⟨t0, t1⟩ := snedT_range hv hw h
      rw [snedf, if_neg (by linarith)]
      exact hasDerivAt_right h ((hasDerivAt_regBeta hv2 t0 t1).comp x (hasDerivAt_snedT hv hw h)) fun y hy => if_neg (by linarith)
  · intro x hx
    rw [snedf]
    split_ifs with h
    · exact le_rfl
    · obtain ⟨t0, t1⟩ := snedT_range hv hw (not_le.1 h)
      have := dens_pos hv2 hw2 t0 t1
      positivity

theorem sned_law (L : Limits) {BI inv : BetaFun} {n m : ℤ} (hn : 0 < n) (hm : 0 < m) (hBI : Spec.IsBetaI BI (n / 2) (m / 2)) :
    Spec.PositiveLaw (snedecorDist L BI inv n m) := by
  have D := sned_data L (BI := BI) (inv := inv) hn hm
  refine ⟨snedF n m, snedf n m, fun x hx => sned_cdf L hn hm hBI hx, fun x hx => sned_pdf L hn hm hx, if_pos le_rfl, D.monotone.monotoneOn _, D.tendsto_top,
    fun x hx => ⟨D.nonneg x hx.ne', D.deriv x hx.ne'⟩, fun x hx => (D.integral_Ioc _ hx rfl).1, fun x hx => ?_⟩
  rw [(D.integral_Ioc _ hx rfl).2, show snedF n m 0 = 0 from if_pos le_rfl, sub_zero]

theorem sned_icdf (L : Limits) {inv : BetaFun} {n m : ℤ} (hn : 0 < n) (hm : 0 < m) {u t : ℝ}
    (h : inv (fin u) (fin (n / 2)) (fin (m / 2)) (fin (Spec.beta (n / 2) (m / 2))) = some (fin t)) :
    (t = 1 → snedecorIcdf L inv n m (fin u) = pinf) ∧ (t < 1 → snedecorIcdf L inv n m (fin u) = fin (snedX n m t)) := by
  have hv : (0 : ℝ) < n := by exact_mod_cast hn
  have hw : (0 : ℝ) < m := by exact_mod_cast hm
  obtain ⟨e1, e2, e3⟩ := sned_norm L hn hm
  rw [snedecorIcdf, e1, e2, e3, h]
  simp only [show ofInt n = fin (n : ℝ) from rfl, show ofInt m = fin (m : ℝ) from rfl, ofNat_fin, fin_sub, Nat.cast_one]
  refine ⟨fun h => ?_, fun h1 => ?_⟩
  · have ez : 1 - t = 0 := by rw [h]; ring
    rw [ez, show fin t / fin 0 = infSign t from if_pos rfl, h, infSign_pos one_pos, pinf_mul_fin, infSign_pos hw]
    exact if_neg (by linarith)
  · rw [fin_div (sub_pos.2 h1).ne', fin_mul, fin_div hv.ne', snedX]

theorem sned_inverse (L : Limits) {BI inv : BetaFun} {n m : ℤ} {d e : ℝ} (hn : 0 < n) (hm : 0 < m) (hBI : Spec.IsBetaI BI (n / 2) (m / 2)) (he : 0 < e) (hd : e ≤ d)
    (hinv : Spec.InvertsBeta inv (n / 2) (m / 2) d e) : Spec.InverseOn (snedecorDist L BI inv n m) d e := by
  have hv : (0 : ℝ) < n := by exact_mod_cast hn
  have hw : (0 : ℝ) < m := by exact_mod_cast hm
  have D := sned_data L (BI := BI) (inv := inv) hn hm
  choose! t ht hq hlo hhi hmid using hinv
  have hmid' : ∀ u, e ≤ u → u ≤ 1 - e → ∃ y, snedecorIcdf L inv n m (fin u) = fin y ∧ 0 < y ∧ |snedF n m y - u| ≤ d := by
    intro u h0 h1
    have hm := hmid u (by linarith) (by linarith) h0 h1
    have hp := snedX_pos hv hw hm.1 hm.2
    refine ⟨_, (sned_icdf L hn ‹0 < m› (ht u (by linarith) (by linarith))).2 hm.2, hp, ?_⟩
    rw [snedF, if_neg (by linarith), snedT_X hv hw hm.2]
    exact hq u (by linarith) (by linarith)
  have hlo' : ∀ u, 0 ≤ u → u ≤ 1 → u < e → snedecorIcdf L inv n m (fin u) = fin 0 := by
    intro u h0 h1 h
    rw [(sned_icdf L hn hm (ht u h0 h1)).2 (by rw [hlo u h0 h1 h]; norm_num), hlo u h0 h1 h]
    congr 1; simp [snedX]
  refine ⟨fun u h0 h1 => ?_, fun u hu => ?_, fun x hx => ?_⟩
  · obtain ⟨y, ey, hy0, hy⟩ := hmid' u h0 h1
    refine ⟨y, _, ?_, ?_, ?_, sned_cdf L hn hm hBI hy0.le, hy⟩
    · simp only [snedecorDist, ofNat_fin, fin_le, fin_eq, Nat.cast_zero, Nat.cast_one]
      rw [if_neg (by push Not; exact ⟨by linarith, by linarith⟩), if_neg (by linarith), if_neg (by linarith), ey]
    · simpa [snedecorDist] using hy0.le
    · exact fin_le_pinf _
  · have hu1 := hu.2.le
    have hu0 : 0 ≤ u := hu.1
    simp only [snedecorDist]
    rcases lt_or_ge u e with h | h
    · rw [hlo' u hu0 hu1 h]
      exact ⟨by simp, trivial⟩
    · rcases le_or_gt u (1 - e) with h' | h'
      · obtain ⟨y, ey, hy, _⟩ := hmid' u h h'
        rw [ey]
        exact ⟨by simpa using hy.le, trivial⟩
      · rw [(sned_icdf L hn hm (ht u hu0 hu1)).1 (hhi u hu0 hu1 h')]
        exact ⟨by simp, trivial⟩
  · have hx0 : 0 ≤ x := by simpa [snedecorDist] using hx
    refine ⟨_, sned_cdf L hn hm hBI hx0, ?_⟩
    refine law_within D.monotone (I := Ico 0 1) Ico_subset_Icc_self Ioo_subset_Ico_self he.le hd (D.range x).2 (D.range x).1 ?_ ?_ ?_
    · intro u hu h
      simp only [snedecorDist]
      rw [hlo' u hu.1 hu.2.le h, fin_le]; exact hx0
    · intro u hu h h'
      obtain ⟨y, ey, _, hy⟩ := hmid' u h h'
      exact ⟨y, ey, hy⟩
    · intro u hu h hux
      simp only [snedecorDist] at hux
      rw [(sned_icdf L hn hm (ht u hu.1 hu.2.le)).1 (hhi u hu.1 hu.2.le h)] at hux
      exact absurd hux (not_pinf_le_fin x)

end Trng
