import Verif.Proofs.RoundedInverse
import Verif.Props.Normal

/-! Property C100: the inverse normal distribution function, and samples of the normal distribution, in the arithmetic of `double`. -/
namespace Trng.Props
open XR Spec Rounded

/-- C100: the arithmetic of `double` with a correctly rounded C library is among those the theorems below speak of. -/
theorem C100_machine : DoubleWithin doubleMachine 1.2e-16 := Inverse.double_within

variable {M : Machine} {d : ℝ}

/-- C100: with a C library of relative error at most 2⁻⁵⁰, `inv_Phi(double)` maps every normal number x < 1 to a number y whose
probability differs from x by at most 3e-12 x if x is at most 1/2, and by at most 3e-12 (1 - x) + 2e-16 otherwise. -/
theorem C100_inv_Phi (D : DoubleWithin M d) (hd : d ≤ 2 ^ (-50 : ℤ)) {x : ℝ} (hR : M.Rep x) (h0 : 2 ^ (-1022 : ℤ) ≤ x) (h1 : x < 1) :
    ∃ y : ℝ, invPhiDouble M (fin x) = fin y ∧ (x ≤ 1 / 2 → |stdNormal y - x| ≤ 3e-12 * x) ∧
      (1 / 2 ≤ x → |stdNormal y - x| ≤ 3e-12 * (1 - x) + 2e-16) := by
  have hd' : d ≤ 9e-16 := hd.trans (by norm_num)
  obtain ⟨y, ey, -, h2⟩ := Inverse.invPhi_value D hd' hR (by rwa [inv_pow, ← zpow_natCast, ← zpow_neg]) h1
  simp only [stdNormal_eq]
  exact ⟨y, ey, h2⟩

/-- Numbers for the examples. -/
theorem rep_quarter : doubleMachine.Rep (1 / 4) := by
  have := dbl_dyadic (n := 1) (e := -2) (by norm_num) (by norm_num) (by norm_num)
  norm_num at this ⊢; exact this

example : ∃ y : ℝ, invPhiDouble doubleMachine (fin (1 / 4)) = fin y ∧ |stdNormal y - 1 / 4| ≤ 3e-12 * (1 / 4) := by
  obtain ⟨y, h, g, -⟩ := C100_inv_Phi C100_machine (by norm_num) rep_quarter
    (le_trans (zpow_le_zpow_right₀ one_le_two (show (-1022 : ℤ) ≤ -2 by norm_num)) (by norm_num)) (by norm_num)
  exact ⟨y, h, g (by norm_num)⟩

/-- C100: at the ends of the interval `inv_Phi(double)` is infinite, and outside of it NaN. -/
theorem C100_inv_Phi_ends : invPhiDouble M 0 = -pinf ∧ invPhiDouble M 1 = pinf ∧
    ∀ x : ℝ, x < 0 ∨ 1 < x → invPhiDouble M (fin x) = nan := by
  have a : Rounded.invPhiApprox M 0 = -pinf := by
    simp [Rounded.invPhiApprox, XR.eq, fin_lt]
  have b : Rounded.invPhiApprox M 1 = pinf := by
    simp [Rounded.invPhiApprox, XR.eq, fin_lt]
  refine ⟨?_, ?_, fun x hx => ?_⟩
  · rw [invPhiDouble, Rounded.invPhi, a]; simp [refine, isFinite, neg_pinf]
  · rw [invPhiDouble, Rounded.invPhi, b]; simp [refine, isFinite]
  · have c : Rounded.invPhiApprox M (fin x) = nan := by
      rw [Rounded.invPhiApprox, if_pos (by rwa [zero_def, one_def, fin_lt, fin_lt])]
    simp [invPhiDouble, Rounded.invPhi, c, refine, isFinite]

/-- C100: without rounding the model is that of C73. -/
theorem C100_exact (wide : Bool) (x : XR) :
    Rounded.invPhi .exact (1 / Real.sqrt 2) 0.6744897501960817 (Real.sqrt (2 * Real.pi)) wide x = Trng.invPhi wide x :=
  Inverse.exact_eq wide x

/-- C100: and normal_dist is that of C60. -/
theorem C100_exact_normal (inv : XR → XR) (mu sigma : XR) :
    Rounded.normal .exact inv (1 / Real.sqrt 2) 0.6744897501960817 (1 / Real.sqrt (2 * Real.pi)) mu sigma = normalDist inv mu sigma := by
  have h := (exact_eq').2.2.1 inv mu sigma
  unfold Rounded.normal
  rw [h]
  simp only [normalDist, Machine.add, Machine.mul, Machine.div, Machine.sub, exact_round, fin_neg_two]
  rfl

example : invPhiDouble doubleMachine (fin (3 / 2)) = nan := C100_inv_Phi_ends.2.2 _ (.inr (by norm_num))

/-- C100: a sample of normal_dist<double>: the deviate is mapped as above, and the result is scaled and shifted with two roundings. -/
theorem C100_normal (D : DoubleWithin M d) (hd : d ≤ 2 ^ (-50 : ℤ)) {c k e u mu sigma : ℝ} (hR : M.Rep u) (h0 : 2 ^ (-1022 : ℤ) ≤ u) (h1 : u < 1)
    (hs : |sigma| ≤ 1e290) (hm : |mu| ≤ 1e290) :
    ∃ y r : ℝ, (Rounded.normal M (invPhiDouble M) c k e (fin mu) (fin sigma)).draw (fin u) = fin r ∧
      |r - (sigma * y + mu)| ≤ 2.5e-16 * (|sigma * y| + |mu|) + 3 * 2 ^ (-1074 : ℤ) ∧
      (u ≤ 1 / 2 → |stdNormal y - u| ≤ 3e-12 * u) ∧ (1 / 2 ≤ u → |stdNormal y - u| ≤ 3e-12 * (1 - u) + 2e-16) := by
  obtain ⟨y, ey, h2⟩ := C100_inv_Phi D hd hR h0 h1
  obtain ⟨y', r, ey', er, h3⟩ := Inverse.normal_value (c := c) (k := k) (e := e) D (hd.trans (by norm_num)) hR
    (by rwa [inv_pow, ← zpow_natCast, ← zpow_neg]) h1 hs hm
  rw [ey, fin_inj] at ey'
  subst ey'
  exact ⟨y, r, er, h3, h2⟩

example : ∃ y r : ℝ, (Rounded.normal doubleMachine (invPhiDouble doubleMachine) 0.7 0.67 0.39 (fin 10) (fin 3)).draw (fin (1 / 4)) = fin r ∧
    |r - (3 * y + 10)| ≤ 2.5e-16 * (|3 * y| + |10|) + 3 * 2 ^ (-1074 : ℤ) ∧ |stdNormal y - 1 / 4| ≤ 3e-12 * (1 / 4) := by
  obtain ⟨y, r, h, g, f, -⟩ := C100_normal (c := 0.7) (k := 0.67) (e := 0.39) (mu := 10) (sigma := 3) C100_machine (by norm_num) rep_quarter
    (le_trans (zpow_le_zpow_right₀ one_le_two (show (-1022 : ℤ) ≤ -2 by norm_num)) (by norm_num)) (by norm_num)
    (by norm_num [abs_of_pos]) (by norm_num [abs_of_pos])
  exact ⟨y, r, h, g, f (by norm_num)⟩

/-- C100 fails for small arguments: from 2⁻¹⁰³² on down, `inv_Phi(double)` of a positive number is NaN, since the exponential
function in the Halley step overflows. -/
theorem C100_inv_Phi_small_wrong (D : DoubleWithin M d) (hd : d ≤ 2 ^ (-50 : ℤ)) {x : ℝ} (hR : M.Rep x) (h0 : 0 < x) (h1 : x ≤ 2 ^ (-1032 : ℤ)) :
    invPhiDouble M (fin x) = nan :=
  Inverse.invPhi_nan D (hd.trans (by norm_num)) hR h0 (by rwa [inv_pow, ← zpow_natCast, ← zpow_neg])

example : invPhiDouble doubleMachine (fin (2 ^ (-1040 : ℤ))) = nan := by
  refine C100_inv_Phi_small_wrong C100_machine (by norm_num) ?_ (by positivity) (zpow_le_zpow_right₀ one_le_two (by norm_num))
  have := dbl_dyadic (n := 1) (e := -1040) (by norm_num) (by norm_num) (by norm_num)
  simpa [Machine.Rep] using this

end Trng.Props
