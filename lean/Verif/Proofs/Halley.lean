import Verif.Proofs.NormalDists
import Mathlib.Analysis.Calculus.MeanValue

/-! The Halley steps of inv_Phi, inv_erf and inv_erfc converge cubically. -/
namespace Trng
open XR MeasureTheory Filter Topology Set
open Classical

theorem exp_quarter_le : Real.exp (1 / 4) ≤ 4 / 3 := by
  have h := Real.exp_bound' (x := 1 / 4) (by norm_num) (by norm_num) (n := 3) (by norm_num)
  refine h.trans ?_
  norm_num [Finset.sum_range_succ, Nat.factorial]

section
variable {F : ℝ → ℝ} {K c : ℝ}

/-- The quotient of the error and the slope. -/
theorem halley_h (hK : 0 < K) (hc : 0 < c) (hF : ∀ y, HasDerivAt F (K * Real.exp (-(c * y ^ 2))) y) {z w M : ℝ} (hz : |z| ≤ M) (hw : |w| ≤ M)
    (hd : c * M * |w - z| ≤ 1 / 8) : |(F w - F z) * (1 / K) * Real.exp (c * w ^ 2)| ≤ 4 / 3 * |w - z| := by
  have hM : 0 ≤ M := (abs_nonneg z).trans hz
  have key : ∀ x ∈ uIcc z w, ‖K * Real.exp (-(c * x ^ 2))‖ ≤ K * (4 / 3 * Real.exp (-(c * w ^ 2))) := by
    intro x hx
    rw [Real.norm_of_nonneg (by positivity)]
    refine mul_le_mul_of_nonneg_left ?_ hK.le
    have hx1 : |x - w| ≤ |w - z| := by
      rw [abs_sub_comm x w]
      rcases le_total z w with h | h
      · rw [uIcc_of_le h] at hx
        rw [abs_of_nonneg (by linarith [hx.2]), abs_of_nonneg (by linarith)]
        linarith [hx.1]
      · rw [uIcc_of_ge h] at hx
        rw [abs_of_nonpos (by linarith [hx.1]), abs_of_nonpos (by linarith)]
        linarith [hx.2]
    have hx2 : |x| ≤ M := by
      rw [abs_le] at hz hw ⊢
      rcases le_total z w with h | h
      · rw [uIcc_of_le h] at hx
        constructor <;> linarith [hx.1, hx.2]
      · rw [uIcc_of_ge h] at hx
        constructor <;> linarith [hx.1, hx.2]
    have h2 : w ^ 2 - x ^ 2 ≤ 2 * M * |w - z| := by
      have : w ^ 2 - x ^ 2 ≤ |x - w| * |x + w| := by
        rw [← abs_mul, show (x - w) * (x + w) = -(w ^ 2 - x ^ 2) by ring, abs_neg]
        exact le_abs_self _
      have h3 : |x + w| ≤ 2 * M := (abs_add_le x w).trans (by linarith)
      calc w ^ 2 - x ^ 2 ≤ |x - w| * |x + w| := this
        _ ≤ |w - z| * (2 * M) := mul_le_mul hx1 h3 (abs_nonneg _) (abs_nonneg _)
        _ = 2 * M * |w - z| := by ring
    have h3 : -(c * x ^ 2) ≤ 1 / 4 + -(c * w ^ 2) := by
      have : c * (w ^ 2 - x ^ 2) ≤ c * (2 * M * |w - z|) := mul_le_mul_of_nonneg_left h2 hc.le
      nlinarith
    calc Real.exp (-(c * x ^ 2)) ≤ Real.exp (1 / 4 + -(c * w ^ 2)) := Real.exp_le_exp.2 h3
      _ = Real.exp (1 / 4) * Real.exp (-(c * w ^ 2)) := Real.exp_add _ _
      _ ≤ 4 / 3 * Real.exp (-(c * w ^ 2)) := mul_le_mul_of_nonneg_right exp_quarter_le (Real.exp_pos _).le
  have hmv := Convex.norm_image_sub_le_of_norm_hasDerivWithin_le (f := F) (s := uIcc z w) (x := z) (y := w)
    (fun x _ => (hF x).hasDerivWithinAt) key (convex_uIcc z w) left_mem_uIcc right_mem_uIcc
  rw [Real.norm_eq_abs, Real.norm_eq_abs] at hmv
  rw [abs_mul, abs_mul, abs_of_nonneg (show (0 : ℝ) ≤ 1 / K by positivity), abs_of_pos (Real.exp_pos _)]
  calc |F w - F z| * (1 / K) * Real.exp (c * w ^ 2)
      ≤ K * (4 / 3 * Real.exp (-(c * w ^ 2))) * |w - z| * (1 / K) * Real.exp (c * w ^ 2) := by gcongr
    _ = 4 / 3 * |w - z| * (Real.exp (-(c * w ^ 2)) * Real.exp (c * w ^ 2)) := by field_simp
    _ = 4 / 3 * |w - z| := by rw [← Real.exp_add, neg_add_cancel, Real.exp_zero, mul_one]

/-- One Halley step. -/
theorem halley_bound (hK : 0 < K) (hc : 0 < c) (hF : ∀ y, HasDerivAt F (K * Real.exp (-(c * y ^ 2))) y) {z y M : ℝ} (hz : |z| ≤ M) (hy : |y| ≤ M)
    (hd : c * M * |y - z| ≤ 1 / 8) (h : ℝ → ℝ) (hh : ∀ y, h y = (F y - F z) * (1 / K) * Real.exp (c * y ^ 2)) :
    5 / 6 ≤ 1 + c * y * h y ∧ |y - h y / (1 + c * y * h y) - z| ≤ 3 * (c + c ^ 2 * M ^ 2) * |y - z| ^ 3 := by
  have hM : 0 ≤ M := (abs_nonneg z).trans hz
  have seg : ∀ x ∈ uIcc z y, |x| ≤ M ∧ |x - z| ≤ |y - z| := by
    intro x hx
    rw [abs_le] at hz hy ⊢
    rcases le_total z y with h | h
    · rw [uIcc_of_le h] at hx
      rw [abs_of_nonneg (by linarith [hx.1]), abs_of_nonneg (by linarith)]
      exact ⟨⟨by linarith [hx.1], by linarith [hx.2]⟩, by linarith [hx.2]⟩
    · rw [uIcc_of_ge h] at hx
      rw [abs_of_nonpos (by linarith [hx.2]), abs_of_nonpos (by linarith)]
      exact ⟨⟨by linarith [hx.1], by linarith [hx.2]⟩, by linarith [hx.1]⟩
  have segd : ∀ x ∈ uIcc z y, c * M * |x - z| ≤ 1 / 8 := fun x hx =>
    (mul_le_mul_of_nonneg_left (seg x hx).2 (by positivity)).trans hd
  have bh : ∀ x ∈ uIcc z y, |h x| ≤ 4 / 3 * |y - z| := by
    intro x hx
    rw [hh]
    exact (halley_h hK hc hF hz (seg x hx).1 (segd x hx)).trans (by linarith [(seg x hx).2])
  have bd : ∀ x ∈ uIcc z y, 5 / 6 ≤ 1 + c * x * h x := by
    intro x hx
    have h1 : |h x| ≤ 4 / 3 * |x - z| := by
      rw [hh]; exact halley_h hK hc hF hz (seg x hx).1 (segd x hx)
    have h2 : |c * x * h x| ≤ 1 / 6 := by
      rw [abs_mul, abs_mul, abs_of_pos hc]
      calc c * |x| * |h x| ≤ c * M * (4 / 3 * |x - z|) :=
            mul_le_mul (mul_le_mul_of_nonneg_left (seg x hx).1 hc.le) h1 (abs_nonneg _) (by positivity)
        _ ≤ 1 / 6 := by linarith [segd x hx]
    linarith [(abs_le.1 h2).1]
  refine ⟨bd y right_mem_uIcc, ?_⟩
  have dh : ∀ x, HasDerivAt h (1 + 2 * c * x * h x) x := by
    intro x
    have e1 : HasDerivAt (fun y : ℝ => c * y ^ 2) (c * (2 * x)) x := by
      have := (hasDerivAt_pow 2 x).const_mul c
      simpa using this
    have e2 := (((hF x).sub_const (F z)).mul_const (1 / K)).fun_mul e1.exp
    have e3 : HasDerivAt h _ x := e2.congr_of_eventuallyEq (Eventually.of_forall hh)
    refine e3.congr_deriv ?_
    rw [hh x]
    have : K * Real.exp (-(c * x ^ 2)) * (1 / K) * Real.exp (c * x ^ 2) = 1 := by
      rw [show K * Real.exp (-(c * x ^ 2)) * (1 / K) * Real.exp (c * x ^ 2) = K * (1 / K) * (Real.exp (-(c * x ^ 2)) * Real.exp (c * x ^ 2)) by ring,
        ← Real.exp_add, neg_add_cancel, Real.exp_zero, mul_one, mul_one_div_cancel hK.ne']
    linear_combination this
  have dN : ∀ x ∈ uIcc z y, HasDerivWithinAt (fun x => x - h x / (1 + c * x * h x)) ((h x) ^ 2 * (c + c ^ 2 * x ^ 2) / (1 + c * x * h x) ^ 2) (uIcc z y) x := by
    intro x hx
    have hne : 1 + c * x * h x ≠ 0 := by linarith [bd x hx]
    have e1 : HasDerivAt (fun y : ℝ => c * y) c x := by simpa using (hasDerivAt_id x).const_mul c
    have e2 := (e1.fun_mul (dh x)).const_add 1
    have e3 := (hasDerivAt_id x).fun_sub ((dh x).fun_div e2 hne)
    refine (e3.congr_deriv ?_).hasDerivWithinAt
    field_simp
    ring
  have hmv := Convex.norm_image_sub_le_of_norm_hasDerivWithin_le (f := fun x => x - h x / (1 + c * x * h x)) (s := uIcc z y) (x := z) (y := y)
    (C := 3 * (c + c ^ 2 * M ^ 2) * |y - z| ^ 2) dN (fun x hx => ?_) (convex_uIcc z y) left_mem_uIcc right_mem_uIcc
  · have hz0 : h z = 0 := by rw [hh]; simp
    simp only [hz0, zero_div, sub_zero, Real.norm_eq_abs] at hmv
    calc |y - h y / (1 + c * y * h y) - z| ≤ 3 * (c + c ^ 2 * M ^ 2) * |y - z| ^ 2 * |y - z| := hmv
      _ = 3 * (c + c ^ 2 * M ^ 2) * |y - z| ^ 3 := by ring
  · have hb := bd x hx
    rw [Real.norm_of_nonneg (by positivity), div_le_iff₀ (by positivity)]
    have h1 : (h x) ^ 2 ≤ (4 / 3 * |y - z|) ^ 2 := by
      rw [← sq_abs (h x)]; exact pow_le_pow_left₀ (abs_nonneg _) (bh x hx) 2
    have h2 : x ^ 2 ≤ M ^ 2 := by
      rw [← sq_abs x]; exact pow_le_pow_left₀ (abs_nonneg _) (seg x hx).1 2
    have h3 : (5 / 6 : ℝ) ^ 2 ≤ (1 + c * x * h x) ^ 2 := pow_le_pow_left₀ (by norm_num) hb 2
    have h4 : c + c ^ 2 * x ^ 2 ≤ c + c ^ 2 * M ^ 2 := by
      have := mul_le_mul_of_nonneg_left h2 (sq_nonneg c); linarith
    calc (h x) ^ 2 * (c + c ^ 2 * x ^ 2) ≤ (4 / 3 * |y - z|) ^ 2 * (c + c ^ 2 * M ^ 2) :=
          mul_le_mul h1 h4 (by positivity) (by positivity)
      _ ≤ 3 * (c + c ^ 2 * M ^ 2) * |y - z| ^ 2 * (5 / 6) ^ 2 := by
          have : 0 ≤ (c + c ^ 2 * M ^ 2) * |y - z| ^ 2 := by positivity
          nlinarith
      _ ≤ 3 * (c + c ^ 2 * M ^ 2) * |y - z| ^ 2 * (1 + c * x * h x) ^ 2 := mul_le_mul_of_nonneg_left h3 (by positivity)
end

theorem phiR_eq (y : ℝ) : phiR y = 1 / Real.sqrt (2 * Real.pi) * Real.exp (-(1 / 2 * y ^ 2)) := by
  rw [phiR]; congr 2; ring

/-- The Halley step of inv_Phi. -/
theorem halleyPhi_bound {z y M : ℝ} (hz : |z| ≤ M) (hy : |y| ≤ M) (hd : M * |y - z| ≤ 1 / 4) :
    ∃ y' : ℝ, halleyPhi (fin (PhiR z)) (fin y) = fin y' ∧ |y' - z| ≤ (3 / 2 + 3 / 4 * M ^ 2) * |y - z| ^ 3 := by
  have hp : (0 : ℝ) < Real.sqrt (2 * Real.pi) := by positivity
  obtain ⟨h1, h2⟩ := halley_bound (F := PhiR) (K := 1 / Real.sqrt (2 * Real.pi)) (c := 1 / 2) (by positivity) (by norm_num)
    (fun y => by rw [← phiR_eq]; exact hasDerivAt_PhiR y) hz hy (by linarith) _ (fun _ => rfl)
  set u := (PhiR y - PhiR z) * (1 / (1 / Real.sqrt (2 * Real.pi))) * Real.exp (1 / 2 * y ^ 2) with hu
  refine ⟨y - u / (1 + 1 / 2 * y * u), ?_, h2.trans (le_of_eq (by ring))⟩
  simp only [halleyPhi, Phi_fin, sqrt2pi]
  xr
  have e : (PhiR y - PhiR z) * Real.sqrt (2 * Real.pi) * Real.exp (y * y * 0.5) = u := by
    rw [hu, one_div_one_div]; congr 2; ring
  rw [e, fin_div (by linarith), fin_sub, fin_inj]
  congr 3; ring

/-- The Halley step of inv_erf. -/
theorem halleyErf_bound {z y M : ℝ} (hz : |z| ≤ M) (hy : |y| ≤ M) (hd : M * |y - z| ≤ 1 / 8) :
    ∃ y' : ℝ, halleyErf (fin (erfR z)) (fin y) = fin y' ∧ |y' - z| ≤ 3 * (1 + M ^ 2) * |y - z| ^ 3 := by
  have hp : (0 : ℝ) < Real.sqrt Real.pi := by positivity
  obtain ⟨h1, h2⟩ := halley_bound (F := erfR) (K := 2 / Real.sqrt Real.pi) (c := 1) (by positivity) (by norm_num)
    (fun y => by rw [one_mul]; exact hasDerivAt_erfR y) hz hy (by linarith) _ (fun _ => rfl)
  set u := (erfR y - erfR z) * (1 / (2 / Real.sqrt Real.pi)) * Real.exp (1 * y ^ 2) with hu
  refine ⟨y - u / (1 + 1 * y * u), ?_, h2.trans (le_of_eq (by ring))⟩
  simp only [halleyErf, erf_fin, sqrtPiOver2]
  xr
  have e : (erfR y - erfR z) * (Real.sqrt Real.pi / 2) * Real.exp (y * y) = u := by
    rw [hu, one_div_div]; congr 2; ring
  rw [e, fin_div (by linarith), fin_sub, fin_inj]
  congr 3; ring

/-- The Halley step of inv_erfc. -/
theorem halleyErfc_bound {z y M : ℝ} (hz : |z| ≤ M) (hy : |y| ≤ M) (hd : M * |y - z| ≤ 1 / 8) :
    ∃ y' : ℝ, halleyErfc (fin (1 - erfR z)) (fin y) = fin y' ∧ |y' - z| ≤ 3 * (1 + M ^ 2) * |y - z| ^ 3 := by
  obtain ⟨y', h1, h2⟩ := halleyErf_bound hz hy hd
  refine ⟨y', ?_, h2⟩
  rw [← h1]
  simp only [halleyErfc, halleyErf, erf_fin, erfc_fin, sqrtPiOver2]
  xr
  rw [show -(1 - erfR y - (1 - erfR z)) = erfR y - erfR z by ring]

end Trng
