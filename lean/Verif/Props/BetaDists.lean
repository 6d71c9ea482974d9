import Verif.Props.BetaFun
import Verif.Proofs.BetaDists

/-! Property C79: beta_dist, student_t_dist and snedecor_f_dist. -/
namespace Trng.Props
open XR Special Set MeasureTheory BetaSeries

/-- C79, beta_dist: cdf is the integral of pdf and a distribution function on [0,1]. -/
theorem C79_beta (L : Limits) {BI inv : BetaFun} {a b : ℝ} (ha : 0 < a) (hb : 0 < b) (hBI : Spec.IsBetaI BI a b) :
    Spec.HasDensity (betaDist BI inv (.mk' L (fin a) (fin b))) {0, 1} ∧ Spec.IsCdf (betaDist BI inv (.mk' L (fin a) (fin b))) := by
  rw [mk'_fin L ha hb]
  have D := beta_data (inv := inv) ha hb hBI
  refine ⟨D.hasDensity, D.isCdf ?_ ?_⟩
  · simp [withIcdf, betaDist]
  · simp [withIcdf, betaDist]

/-- C79, student_t_dist: cdf is the integral of pdf and a distribution function on the real numbers. -/
theorem C79_student (L : Limits) {BI inv : BetaFun} {nu : ℤ} (hn : 0 < nu) (hBI : Spec.IsBetaI BI (nu / 2) (nu / 2)) :
    Spec.HasDensity (studentDist L BI inv nu) ∅ ∧ Spec.CdfLaw (studentDist L BI inv nu) := by
  have D := student_data L (inv := inv) hn hBI
  exact ⟨D.hasDensity, _, D.cdf, D.monotone, D.range, D.below, D.above, D.tendsto_bot, D.tendsto_top⟩

/-- C79, snedecor_f_dist: on the positive numbers, cdf is the integral of pdf and increases from 0 to 1. -/
theorem C79_snedecor (L : Limits) {BI inv : BetaFun} {n m : ℤ} (hn : 0 < n) (hm : 0 < m) (hBI : Spec.IsBetaI BI (n / 2) (m / 2)) :
    Spec.PositiveLaw (snedecorDist L BI inv n m) := sned_law L hn hm hBI

/-- C79: if `inv_Beta_I` inverts `Beta_I` up to an error `d` of the probability, icdf inverts cdf up to `d`, the samples lie between min and
max and have the distribution function cdf up to `d`, for all three distributions.  Missing: that `inv_Beta_I` is such an inverse for all
parameters, see `C78_symmetric`, `C78_inverse_partial` and `C78_hang_wrong`. -/
theorem C79_inverse_partial (L : Limits) {BI inv : BetaFun} {d e : ℝ} (he : 0 < e) (hd : e ≤ d) :
    (∀ a b : ℝ, 0 < a → 0 < b → Spec.IsBetaI BI a b → Spec.InvertsBeta inv a b d e → Spec.InverseOn (betaDist BI inv (.mk' L (fin a) (fin b))) d e) ∧
    (∀ nu : ℤ, 0 < nu → Spec.IsBetaI BI (nu / 2) (nu / 2) → Spec.InvertsBeta inv (nu / 2) (nu / 2) d e → Spec.InverseOn (studentDist L BI inv nu) d e) ∧
    (∀ n m : ℤ, 0 < n → 0 < m → Spec.IsBetaI BI (n / 2) (m / 2) → Spec.InvertsBeta inv (n / 2) (m / 2) d e →
      Spec.InverseOn (snedecorDist L BI inv n m) d e) := by
  refine ⟨fun a b ha hb h1 h2 => ?_, fun nu hn h1 h2 => student_inverse L hn h1 he hd h2, fun n m hn hm h1 h2 => sned_inverse L hn hm h1 he hd h2⟩
  rw [mk'_fin L ha hb]
  exact beta_inverse ha hb h1 he hd h2

/-- C79 with the library's `inv_Beta_I`, for student_t_dist with at least two degrees of freedom. -/
theorem C79_student_inverse {L : Limits} {rnd : XR → XR} {BI : BetaFun} {nu : ℤ} (hn : 2 ≤ nu) (hBI : Spec.IsBetaI BI (nu / 2) (nu / 2))
    (he : 0 < L.epsilon) (he1 : L.epsilon < 1 / 2) :
    Spec.InverseOn (studentDist L BI (invBetaI L rnd BI) nu) (max (2⁻¹ ^ L.digits) (2 * L.epsilon)) L.epsilon := by
  have hv : (2 : ℝ) ≤ nu := by exact_mod_cast hn
  exact student_inverse L (by omega) hBI he (le_trans (by linarith) (le_max_right _ _)) (C78_symmetric (by linarith) hBI he he1)

/-- C79 with the library's `inv_Beta_I`, for beta_dist and snedecor_f_dist with equal parameters. -/
theorem C79_symmetric_partial {L : Limits} {rnd : XR → XR} {BI : BetaFun} (he : 0 < L.epsilon) (he1 : L.epsilon < 1 / 2) :
    (∀ a : ℝ, 1 ≤ a → Spec.IsBetaI BI a a →
      Spec.InverseOn (betaDist BI (invBetaI L rnd BI) (.mk' L (fin a) (fin a))) (max (2⁻¹ ^ L.digits) (2 * L.epsilon)) L.epsilon) ∧
    (∀ n : ℤ, 2 ≤ n → Spec.IsBetaI BI (n / 2) (n / 2) →
      Spec.InverseOn (snedecorDist L BI (invBetaI L rnd BI) n n) (max (2⁻¹ ^ L.digits) (2 * L.epsilon)) L.epsilon) := by
  have H := C79_inverse_partial L (BI := BI) (inv := invBetaI L rnd BI) (d := max (2⁻¹ ^ L.digits) (2 * L.epsilon)) he (le_trans (by linarith) (le_max_right _ _))
  refine ⟨fun a ha hBI => H.1 a a (by linarith) (by linarith) hBI (C78_symmetric ha hBI he he1), fun n hn hBI => ?_⟩
  have hv : (2 : ℝ) ≤ n := by exact_mod_cast hn
  exact H.2.2 n n (by omega) (by omega) hBI (C78_symmetric (by linarith) hBI he he1)

/-- An exact `Beta_I`, for the examples. -/
noncomputable def exactBeta : BetaFun := fun x p q _ =>
  match x, p, q with | fin x, fin p, fin q => some (fin (Spec.regBeta x p q)) | _, _, _ => none
theorem exactBeta_isBetaI (p q : ℝ) : Spec.IsBetaI exactBeta p q := fun _ _ _ => rfl

example : Spec.HasDensity (betaDist exactBeta exactBeta (.mk' .double (fin 2) (fin (1 / 2)))) {0, 1} ∧
    Spec.IsCdf (betaDist exactBeta exactBeta (.mk' .double (fin 2) (fin (1 / 2)))) :=
  C79_beta .double (by norm_num) (by norm_num) (exactBeta_isBetaI _ _)
example : Spec.HasDensity (studentDist .double exactBeta exactBeta 5) ∅ ∧ Spec.CdfLaw (studentDist .double exactBeta exactBeta 5) :=
  C79_student .double (by norm_num) (exactBeta_isBetaI _ _)
example : Spec.PositiveLaw (snedecorDist .float exactBeta exactBeta 3 4) := C79_snedecor .float (by norm_num) (by norm_num) (exactBeta_isBetaI _ _)
example : Spec.InverseOn (studentDist .double exactBeta (invBetaI .double id exactBeta) 5) (2⁻¹ ^ 51) (2⁻¹ ^ 52) := by
  have := C79_student_inverse (L := .double) (rnd := id) (nu := 5) (by norm_num) (exactBeta_isBetaI _ _) (by norm_num [Limits.double]) (by norm_num [Limits.double])
  rwa [show max (2⁻¹ ^ Limits.double.digits) (2 * Limits.double.epsilon) = 2⁻¹ ^ 51 by norm_num [Limits.double]] at this

/-- C79: changing a parameter of beta_dist gives the same object as constructing it. -/
theorem C79_set (L : Limits) (a b c : XR) :
    (BetaParam.mk' L a b).setAlpha L c = .mk' L c b ∧ (BetaParam.mk' L a b).setBeta L c = .mk' L a c := ⟨rfl, rfl⟩

/-- C79 fails for the comparison: two beta_dist parameter sets with the same `alpha` are equal whatever their `beta`. -/
theorem C79_eq_wrong (L : Limits) {a : ℝ} (b c : XR) : (BetaParam.mk' L (fin a) b).eq (.mk' L (fin a) c) := by
  simp [BetaParam.eq, BetaParam.mk']

/-- C79 fails in the tails: deviates below ε give the sample -∞ of student_t_dist and deviates above 1 - ε the sample +∞ of student_t_dist
and snedecor_f_dist. -/
theorem C79_tails_wrong {L : Limits} {rnd : XR → XR} {BI : BetaFun} {nu n m : ℤ} (hnu : 0 < nu) (hn : 0 < n) (hm : 0 < m) (he1 : L.epsilon < 1 / 2) (u : ℝ) :
    (u < L.epsilon → (studentDist L BI (invBetaI L rnd BI) nu).draw (fin u) = ninf) ∧
    (1 - L.epsilon < u → (studentDist L BI (invBetaI L rnd BI) nu).draw (fin u) = pinf ∧ (snedecorDist L BI (invBetaI L rnd BI) n m).draw (fin u) = pinf) := by
  refine ⟨fun h => ?_, fun h => ⟨?_, ?_⟩⟩
  · refine (student_icdf L hnu (t := 0) ?_).1 rfl
    rw [invBetaI, if_pos (by simpa using h)]; simp
  · refine (student_icdf L hnu (t := 1) ?_).2.1 rfl
    rw [invBetaI, if_neg (by rw [fin_lt]; linarith), if_pos (by simp only [ofNat_fin, Nat.cast_one, fin_sub, fin_lt]; linarith)]; simp
  · refine (sned_icdf L hn hm (t := 1) ?_).1 rfl
    rw [invBetaI, if_neg (by rw [fin_lt]; linarith), if_pos (by simp only [ofNat_fin, Nat.cast_one, fin_sub, fin_lt]; linarith)]; simp

/-- C79 fails at infinity: cdf(±∞) of student_t_dist and cdf(+∞) of snedecor_f_dist call `Beta_I` with the argument NaN, which is undefined
behaviour (`C77_nan_wrong`), instead of returning 0 and 1. -/
theorem C79_infinity_wrong (L : Limits) {nu n m : ℤ} (hnu : 0 < nu) (hn : 0 < n) (hm : 0 < m) :
    (∀ BI inv : BetaFun, (studentDist L BI inv nu).cdf pinf = (BI nan (fin (nu / 2)) (fin (nu / 2)) (fin (Spec.beta (nu / 2) (nu / 2)))).getD nan ∧
      (studentDist L BI inv nu).cdf ninf = (BI nan (fin (nu / 2)) (fin (nu / 2)) (fin (Spec.beta (nu / 2) (nu / 2)))).getD nan ∧
      (snedecorDist L BI inv n m).cdf pinf = (BI nan (fin (n / 2)) (fin (m / 2)) (fin (Spec.beta (n / 2) (m / 2)))).getD nan) ∧
    betaI L nan (fin (nu / 2)) (fin (nu / 2)) (fin (Spec.beta (nu / 2) (nu / 2))) = none ∧
    betaI L nan (fin (n / 2)) (fin (m / 2)) (fin (Spec.beta (n / 2) (m / 2))) = none := by
  have h1 : (0 : ℝ) < nu := by exact_mod_cast hnu
  have h2 : (0 : ℝ) < n := by exact_mod_cast hn
  have h3 : (0 : ℝ) < m := by exact_mod_cast hm
  refine ⟨fun BI inv => ⟨?_, ?_, ?_⟩, C77_nan_wrong L (by linarith) (by linarith) _, C77_nan_wrong L (by linarith) (by linarith) _⟩
  · simp only [studentDist]
    rw [(student_norm L hnu).1, (student_norm L hnu).2]
    have e2 : 2 * pinf = pinf := by show infSign ((2 : ℕ) : ℝ) = pinf; rw [infSign_pos (by norm_num)]
    rw [show pinf * pinf + ofInt nu = pinf from rfl, show sqrt pinf = pinf from rfl, e2]
    rfl
  · simp only [studentDist]
    rw [(student_norm L hnu).1, (student_norm L hnu).2]
    have e2 : 2 * pinf = pinf := by show infSign ((2 : ℕ) : ℝ) = pinf; rw [infSign_pos (by norm_num)]
    rw [show ninf * ninf + ofInt nu = pinf from rfl, show sqrt pinf = pinf from rfl, e2]
    rfl
  · simp only [snedecorDist]
    rw [(sned_norm L hn hm).1, (sned_norm L hn hm).2.1, (sned_norm L hn hm).2.2]
    have e2 : ofInt n * pinf = pinf := by show infSign (n : ℝ) = pinf; rw [infSign_pos h2]
    rw [e2]
    rfl

/-- C79 fails below the support: cdf and pdf of snedecor_f_dist are NaN for every negative number instead of 0; and at 0 the density for
n = 2 is NaN instead of 1. -/
theorem C79_snedecor_wrong (L : Limits) (inv : BetaFun) {n m : ℤ} (hn : 0 < n) (hm : 0 < m) :
    (∀ x : ℝ, x < 0 → (snedecorDist L (betaI L) inv n m).cdf (fin x) = nan ∧ (snedecorDist L (betaI L) inv n m).pdf (fin x) = nan) ∧
    (snedecorDist L (betaI L) inv 2 m).pdf (fin 0) = nan := by
  have h2 : (0 : ℝ) < n := by exact_mod_cast hn
  have h3 : (0 : ℝ) < m := by exact_mod_cast hm
  refine ⟨fun x hx => ⟨?_, ?_⟩, ?_⟩
  · simp only [snedecorDist]
    suffices h : betaI L (ofInt n * fin x / (ofInt m + ofInt n * fin x)) (1 / 2 * ofInt n) (1 / 2 * ofInt m) (beta L (1 / 2 * ofInt n) (1 / 2 * ofInt m)) = some nan by
      rw [h]; rfl
    refine C77_domain L _ _ _ _ (Or.inr (Or.inr ?_))
    have hnx : (n : ℝ) * x < 0 := by nlinarith
    rw [show ofInt n = fin (n : ℝ) from rfl, show ofInt m = fin (m : ℝ) from rfl, fin_mul, fin_add, fin_div']
    split_ifs with h
    · rw [infSign_neg hnx]
      exact Or.inl trivial
    · simp only [ofNat_fin, fin_lt, Nat.cast_zero, Nat.cast_one]
      rcases lt_or_gt_of_ne h with c | c
      · right
        rw [lt_div_iff_of_neg c]; linarith
      · left
        exact div_neg_of_neg_of_pos hnx c
  · simp only [snedecorDist]
    have : ln (fin x) = nan := by
      show (if 0 < x then fin (Real.log x) else if x = 0 then ninf else nan) = nan
      rw [if_neg (by linarith), if_neg (by linarith)]
    simp [this]
  · simp only [snedecorDist]
    have h : ln (fin 0) * (1 / 2 * ofInt 2 - 1) = nan := by
      rw [(sned_norm L (n := 2) (m := m) (by norm_num) hm).2.1, ofNat_fin, fin_sub]
      have : ((2 : ℤ) : ℝ) / 2 - ((1 : ℕ) : ℝ) = 0 := by norm_num
      rw [this]
      show (if (0 : ℝ) < 0 then fin (Real.log 0) else if (0 : ℝ) = 0 then ninf else nan) * fin 0 = nan
      rw [if_neg (lt_irrefl _), if_pos rfl]
      show infSign (-0) = nan
      simp [infSign]
    rw [h]
    simp

/-- C79 fails at the ends: icdf(0) and icdf(1) of student_t_dist and snedecor_f_dist are NaN; the lines that return the ends of the support
are never reached. -/
theorem C79_ends_wrong (L : Limits) (BI inv : BetaFun) (nu n m : ℤ) :
    (studentDist L BI inv nu).icdf (fin 0) = nan ∧ (studentDist L BI inv nu).icdf (fin 1) = nan ∧
    (snedecorDist L BI inv n m).icdf (fin 0) = nan ∧ (snedecorDist L BI inv n m).icdf (fin 1) = nan := by
  simp [studentDist, snedecorDist]

/-- C79 fails for beta_dist(1/4, 1/4) in double precision: the deviates for which operator() does not return have a positive probability, more
than 1/2^16. -/
theorem C79_hang_wrong {rnd : XR → XR} (hrnd : ∀ z : ℝ, 0 ≤ z → z ≤ 2⁻¹ ^ 54 → rnd (fin (1 - z)) = fin 1) {BI : BetaFun} (hBI : Spec.IsBetaI BI (1 / 4) (1 / 4)) :
    ENNReal.ofReal (2⁻¹ ^ 16) ≤ volume {u : ℝ | u ∈ (betaDist BI (invBetaI .double rnd BI) (.mk' .double (fin (1 / 4)) (fin (1 / 4)))).deviate ∧
      invBetaI .double rnd BI (fin u) (fin (1 / 4)) (fin (1 / 4)) (BetaParam.mk' .double (fin (1 / 4)) (fin (1 / 4))).norm = none} := by
  have hs : Icc (1 - 2⁻¹ ^ 15 : ℝ) (1 - 2⁻¹ ^ 51) ⊆ {u : ℝ | u ∈ (betaDist BI (invBetaI .double rnd BI) (.mk' .double (fin (1 / 4)) (fin (1 / 4)))).deviate ∧
      invBetaI .double rnd BI (fin u) (fin (1 / 4)) (fin (1 / 4)) (BetaParam.mk' .double (fin (1 / 4)) (fin (1 / 4))).norm = none} := by
    intro u hu
    refine ⟨⟨lt_of_lt_of_le (by norm_num) hu.1, lt_of_le_of_lt hu.2 (by norm_num)⟩, ?_⟩
    rw [mk'_fin .double (by norm_num) (by norm_num)]
    exact C78_hang_wrong hrnd hBI hu.1 hu.2
  refine le_trans ?_ (measure_mono hs)
  rw [Real.volume_Icc]
  refine ENNReal.ofReal_le_ofReal ?_
  norm_num

end Trng.Props
