import Verif.Props.Normal
import Verif.Proofs.InvPhi

/-! C74 and C73: the inverse normal distribution function of the library is an inverse, with the coefficients the library has, and so
the normal, lognormal and truncated normal distributions sample what they should. -/
namespace Trng
open XR Set
open Classical

/-- The rational approximation that `inv_Phi` starts from is finite and exact to eight millionths of the smaller of the two tail
probabilities, for every argument a `double` holds. -/
theorem C74_approximation {u : ℝ} (h0 : (2 : ℝ)⁻¹ ^ 1074 ≤ u) (h1 : u ≤ 1 - (2 : ℝ)⁻¹ ^ 1074) :
    ∃ y : ℝ, invPhiApprox (fin u) = fin y ∧ |Spec.stdNormal y - u| ≤ 8e-6 * min u (1 - u) := by
  have hp : (0 : ℝ) < (2 : ℝ)⁻¹ ^ 1074 := pow_pos (by norm_num) _
  obtain ⟨y, y', y'', e, -, -, h, -⟩ := Acklam.main (u := u) (hp.trans_le h0) (by linarith)
  exact ⟨y, e, by rw [stdNormal_eq]; exact (h h0 h1).1⟩

theorem invPhi_eq {wide : Bool} {u y y' y'' : ℝ} (e : invPhiApprox (fin u) = fin y) (s1 : halleyPhi (fin u) (fin y) = fin y')
    (s2 : halleyPhi (fin u) (fin y') = fin y'') : invPhi wide (fin u) = fin (if wide then y'' else y') := by
  unfold invPhi
  rw [e]; exact Acklam.refine_fin s1 s2

/-- `inv_Phi`, relative to the smaller tail probability: one step gives fifteen digits, two (for wider types) forty-five. -/
theorem C74_inv_Phi_accuracy {u : ℝ} (h0 : (2 : ℝ)⁻¹ ^ 1074 ≤ u) (h1 : u ≤ 1 - (2 : ℝ)⁻¹ ^ 1074) :
    (∃ y : ℝ, invPhi false (fin u) = fin y ∧ |Spec.stdNormal y - u| ≤ 1e-15 * min u (1 - u)) ∧
    ∃ y : ℝ, invPhi true (fin u) = fin y ∧ |Spec.stdNormal y - u| ≤ 1e-45 * min u (1 - u) := by
  have hp : (0 : ℝ) < (2 : ℝ)⁻¹ ^ 1074 := pow_pos (by norm_num) _
  obtain ⟨y, y', y'', e, s1, s2, h, -⟩ := Acklam.main (u := u) (hp.trans_le h0) (by linarith)
  obtain ⟨-, h⟩ := h h0 h1
  simp only [stdNormal_eq]
  exact ⟨⟨_, invPhi_eq e s1 s2, h false⟩, ⟨_, invPhi_eq e s1 s2, h true⟩⟩

theorem invPhi_inverts (wide : Bool) : Spec.InvertsNormal (invPhi wide) (Acklam.tol wide) := by
  intro u h0 h1
  obtain ⟨y, y', y'', e, s1, s2, -, h⟩ := Acklam.main h0 h1
  refine ⟨_, invPhi_eq e s1 s2, ?_⟩
  rw [stdNormal_eq]; exact h wide

/-- `inv_Phi` inverts the normal distribution function on the whole open interval. -/
theorem C74_inv_Phi_inverts : Spec.InvertsNormal (invPhi false) 1e-15 ∧ Spec.InvertsNormal (invPhi true) 1e-45 :=
  ⟨invPhi_inverts false, invPhi_inverts true⟩

/-- normal_dist with the library's `inv_Phi`. -/
theorem C73_normal_code {mu sigma : ℝ} (hs : 0 < sigma) :
    Spec.InverseWithin (normalDist (invPhi false) (fin mu) (fin sigma)) 1e-15 univ ∧
    Spec.InverseWithin (normalDist (invPhi true) (fin mu) (fin sigma)) 1e-45 univ :=
  ⟨C73_normal (by norm_num) C74_inv_Phi_inverts.1 hs, C73_normal (by norm_num) C74_inv_Phi_inverts.2 hs⟩

/-- lognormal_dist with the library's `inv_Phi`. -/
theorem C73_lognormal_code {mu sigma : ℝ} (hs : 0 < sigma) :
    Spec.InverseWithin (lognormalDist (invPhi false) (fin mu) (fin sigma)) 1e-15 univ ∧
    Spec.InverseWithin (lognormalDist (invPhi true) (fin mu) (fin sigma)) 1e-45 univ :=
  ⟨(C73_lognormal (by norm_num) C74_inv_Phi_inverts.1 hs).1, (C73_lognormal (by norm_num) C74_inv_Phi_inverts.2 hs).1⟩

/-- truncated_normal_dist with the library's `inv_Phi`. -/
theorem C73_truncated_normal_code {mu sigma : ℝ} (hs : 0 < sigma) {a b : XR}
    (ha : a = ninf ∨ ∃ x, a = fin x) (hb : b = pinf ∨ ∃ x, b = fin x) (hab : a < b) : ∃ P : ℝ, 0 < P ∧
    truncPhiB (fin mu) (fin sigma) b - truncPhiA (fin mu) (fin sigma) a = fin P ∧
    Spec.InverseWithin (truncatedNormalDist (invPhi false) (fin mu) (fin sigma) a b) (1e-15 / P) {x | fin x ≤ b} ∧
    Spec.InverseWithin (truncatedNormalDist (invPhi true) (fin mu) (fin sigma) a b) (1e-45 / P) {x | fin x ≤ b} := by
  obtain ⟨P, h1, h2, h3, -⟩ := C73_truncated_normal (by norm_num) C74_inv_Phi_inverts.1 hs ha hb hab
  obtain ⟨P', -, h2', h3', -⟩ := C73_truncated_normal (by norm_num) C74_inv_Phi_inverts.2 hs ha hb hab
  have : P' = P := by rw [h2] at h2'; exact ((fin_inj _ _).1 h2').symm
  exact ⟨P, h1, h2, h3, this ▸ h3'⟩

/-- `inv_erf` inverts `erf` on the open interval from -1 to 1; the error is relative to the distance from the nearer end. -/
theorem C74_inv_erf_accuracy {x : ℝ} (h0 : -1 < x) (h1 : x < 1) (wide : Bool) :
    ∃ y e : ℝ, invErf wide (fin x) = fin y ∧ erf (fin y) = fin e ∧ |e - x| ≤ 2 * (if wide then 1e-45 else 1e-15) ∧
      ((2 : ℝ)⁻¹ ^ 1073 ≤ 1 - |x| → |e - x| ≤ (if wide then 1e-45 else 1e-15) * (1 - |x|)) := by
  obtain ⟨u, rfl⟩ : ∃ u, x = 2 * u - 1 := ⟨(x + 1) / 2, by ring⟩
  have hp : (0 : ℝ) < (2 : ℝ)⁻¹ ^ 1074 := pow_pos (by norm_num) _
  obtain ⟨y, y', y'', e, s1, s2, h, h'⟩ := Acklam.main (u := u) (by linarith) (by linarith)
  have t1 := (Acklam.halleyErf_eq s1).1
  have t2 := (Acklam.halleyErf_eq s2).1
  have ea : invPhiApprox ((fin (2 * u - 1) + 1) / 2) * oneOverSqrt2 = fin (y / Real.sqrt 2) := by
    rw [ofNat_fin, ofNat_fin, fin_add, fin_div (by norm_num)]
    rw [show (2 * u - 1 + ((1 : ℕ) : ℝ)) / ((2 : ℕ) : ℝ) = u by push_cast; ring, e, oneOverSqrt2, fin_mul, mul_one_div]
  have hE : ∀ y : ℝ, |erfR (y / Real.sqrt 2) - (2 * u - 1)| = 2 * |PhiR y - u| := by
    intro y
    rw [show erfR (y / Real.sqrt 2) - (2 * u - 1) = 2 * (PhiR y - u) by rw [PhiR]; ring, abs_mul, abs_two]
  have hv : (if wide then y'' / Real.sqrt 2 else y' / Real.sqrt 2) = (if wide then y'' else y') / Real.sqrt 2 := by
    split_ifs <;> rfl
  have ht : Acklam.tol wide = if wide then 1e-45 else 1e-15 := rfl
  refine ⟨_, _, by unfold invErf; rw [ea]; exact Acklam.refine_fin t1 t2, erf_fin _, ?_, fun hx => ?_⟩
  · rw [hv, hE, ← ht]; linarith [h' wide]
  · have hpow : (2 : ℝ)⁻¹ ^ 1073 = 2 * (2 : ℝ)⁻¹ ^ 1074 := by rw [pow_succ _ 1073]; ring
    rw [hpow] at hx
    have a := neg_abs_le (2 * u - 1)
    have b := le_abs_self (2 * u - 1)
    have hm : 2 * min u (1 - u) ≤ 1 - |2 * u - 1| := by
      rcases le_total u (1 - u) with c | c
      · rw [min_eq_left c, abs_of_nonpos (by linarith)]; linarith
      · rw [min_eq_right c, abs_of_nonneg (by linarith)]; linarith
    have := (h (by linarith) (by linarith)).2 wide
    have hpos := Acklam.tol_pos wide
    rw [hv, hE, ← ht]
    nlinarith

/-- `inv_erfc` inverts `erfc` on the open interval from 0 to 2; near 0 the error is relative to the argument. -/
theorem C74_inv_erfc_accuracy {x : ℝ} (h0 : 0 < x) (h1 : x < 2) (wide : Bool) :
    ∃ y e : ℝ, invErfc wide (fin x) = fin y ∧ erfc (fin y) = fin e ∧ |e - x| ≤ 2 * (if wide then 1e-45 else 1e-15) ∧
      ((2 : ℝ)⁻¹ ^ 1073 ≤ min x (2 - x) → |e - x| ≤ (if wide then 1e-45 else 1e-15) * min x (2 - x)) := by
  have hp : (0 : ℝ) < (2 : ℝ)⁻¹ ^ 1074 := pow_pos (by norm_num) _
  have hp1 : (2 : ℝ)⁻¹ ^ 1074 ≤ 1 / 2 := by
    rw [pow_succ]
    have : (2 : ℝ)⁻¹ ^ 1073 ≤ 1 := pow_le_one₀ (by norm_num) (by norm_num)
    calc (2 : ℝ)⁻¹ ^ 1073 * 2⁻¹ ≤ 1 * 2⁻¹ := mul_le_mul_of_nonneg_right this (by norm_num)
      _ = 1 / 2 := by norm_num
  have ht : Acklam.tol wide = if wide then 1e-45 else 1e-15 := rfl
  have hpow : (2 : ℝ)⁻¹ ^ 1073 = 2 * (2 : ℝ)⁻¹ ^ 1074 := by rw [pow_succ _ 1073]; ring
  have key : ∀ u : ℝ, 0 < u → u ≤ 1 / 2 → ∃ Y : ℝ, Trng.refine wide (halleyErfc (fin (2 * u))) (-invPhiApprox (fin (2 * u) / 2) * oneOverSqrt2)
      = fin (-Y / Real.sqrt 2) ∧ |PhiR Y - u| ≤ Acklam.tol wide ∧ ((2 : ℝ)⁻¹ ^ 1074 ≤ u → |PhiR Y - u| ≤ Acklam.tol wide * u) := by
    intro u hu0 hu1
    obtain ⟨y, y', y'', e, s1, s2, h, h'⟩ := Acklam.main (u := u) hu0 (by linarith)
    have t1 := (Acklam.halleyErf_eq s1).2
    have t2 := (Acklam.halleyErf_eq s2).2
    refine ⟨if wide then y'' else y', ?_, h' wide, fun hx => ?_⟩
    · have ea : -invPhiApprox (fin (2 * u) / 2) * oneOverSqrt2 = fin (-y / Real.sqrt 2) := by
        rw [ofNat_fin, fin_div (by norm_num), show 2 * u / ((2 : ℕ) : ℝ) = u by push_cast; ring, e, neg_fin, oneOverSqrt2, fin_mul, mul_one_div]
      rw [ea, Acklam.refine_fin t1 t2]
      split_ifs <;> rfl
    · have := (h hx (by linarith)).2 wide
      rwa [min_eq_left (by linarith)] at this
  have hE : ∀ y : ℝ, 1 - erfR (-y / Real.sqrt 2) = 2 * PhiR y := by
    intro y; rw [neg_div, erfR_neg, PhiR]; ring
  have hE' : ∀ y : ℝ, 1 - erfR (-(-y / Real.sqrt 2)) = 2 - 2 * PhiR y := by
    intro y; rw [neg_div, neg_neg, PhiR]; ring
  have hpos := Acklam.tol_pos wide
  unfold invErfc
  rw [ofNat_fin 1, Nat.cast_one]
  by_cases c : 1 < x
  · obtain ⟨Y, k1, k2, k3⟩ := key ((2 - x) / 2) (by linarith) (by linarith)
    simp only [if_pos ((fin_lt 1 x).2 c)]
    have e : -(fin x - fin 1) + fin 1 = fin (2 * ((2 - x) / 2)) := by
      rw [fin_sub, neg_fin, fin_add]; congr 1; ring
    have ea : |2 - 2 * PhiR Y - x| = 2 * |PhiR Y - (2 - x) / 2| := by
      rw [show 2 - 2 * PhiR Y - x = -(2 * (PhiR Y - (2 - x) / 2)) by ring, abs_neg, abs_mul, abs_two]
    refine ⟨_, _, by rw [e, k1]; rfl, erfc_fin _, ?_, fun hx => ?_⟩
    · rw [hE', ea, ← ht]; linarith
    · rw [min_eq_right (by linarith)] at hx ⊢
      rw [hE', ea, ← ht]
      have := k3 (by rw [le_div_iff₀ two_pos, mul_comm, ← hpow]; exact hx)
      linarith
  · obtain ⟨Y, k1, k2, k3⟩ := key (x / 2) (by linarith) (by linarith)
    simp only [if_neg (mt (fin_lt 1 x).1 c)]
    have e : fin x = fin (2 * (x / 2)) := by congr 1; ring
    have ea : |2 * PhiR Y - x| = 2 * |PhiR Y - x / 2| := by
      rw [show 2 * PhiR Y - x = 2 * (PhiR Y - x / 2) by ring, abs_mul, abs_two]
    rw [← e] at k1
    refine ⟨_, _, k1, erfc_fin _, ?_, fun hx => ?_⟩
    · rw [hE, ea, ← ht]; linarith
    · rw [min_eq_left (by linarith)] at hx ⊢
      rw [hE, ea, ← ht]
      have := k3 (by rw [le_div_iff₀ two_pos, mul_comm, ← hpow]; exact hx)
      linarith

/-- The tail beyond one in a million is met to fifteen digits of that millionth. -/
example : ∃ y : ℝ, invPhi false (fin 1e-6) = fin y ∧ |Spec.stdNormal y - 1e-6| ≤ 1e-21 := by
  have h : (2 : ℝ)⁻¹ ^ 1074 ≤ 1e-6 := by
    calc (2 : ℝ)⁻¹ ^ 1074 ≤ (2 : ℝ)⁻¹ ^ 20 := pow_le_pow_of_le_one (by norm_num) (by norm_num) (by norm_num)
      _ ≤ 1e-6 := by norm_num
  obtain ⟨y, h1, h2⟩ := (C74_inv_Phi_accuracy (u := 1e-6) h (le_sub_comm.1 (h.trans (by norm_num)))).1
  exact ⟨y, h1, h2.trans (by norm_num)⟩
example : ∃ y e : ℝ, invErf false (fin 0.5) = fin y ∧ erf (fin y) = fin e ∧ |e - 0.5| ≤ 2e-15 := by
  obtain ⟨y, e, h1, h2, h3, -⟩ := C74_inv_erf_accuracy (x := 0.5) (by norm_num) (by norm_num) false
  exact ⟨y, e, h1, h2, h3.trans (by norm_num)⟩
example : ∃ y e : ℝ, invErfc false (fin 1.5) = fin y ∧ erfc (fin y) = fin e ∧ |e - 1.5| ≤ 2e-15 := by
  obtain ⟨y, e, h1, h2, h3, -⟩ := C74_inv_erfc_accuracy (x := 1.5) (by norm_num) (by norm_num) false
  exact ⟨y, e, h1, h2, h3.trans (by norm_num)⟩
example : Spec.InverseWithin (lognormalDist (invPhi false) (fin 0) (fin 1)) 1e-15 univ := (C73_lognormal_code one_pos).1

end Trng
