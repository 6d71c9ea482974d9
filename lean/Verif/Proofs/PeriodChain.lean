import Verif.Proofs.PeriodDeviate
import Verif.Proofs.PeriodTrig

/-! Engine, deviates and sampling function put together. -/
namespace Trng.PeriodLaw
open XR FP Trng.Uniform Trng.Uniform.Traits Spec

variable {σ : Type} {M : Machine} {G : Gen σ} {e : σ} {T : ℕ} {D : ContDist} {F : ℝ → ℝ} {ε δ : ℝ}

theorem FollowsUpTo.mono {sample : σ → XR × σ} (h : FollowsUpTo sample e T F ε) (hd : ε ≤ δ) : FollowsUpTo sample e T F δ :=
  ⟨h.number, fun t => (h.law t).trans hd⟩

theorem sum_le (hG : G.Sound) : ε + (12 / (G.max - G.min) + 4e-15) + 1 / (G.max - G.min + 1) + 1 / T ≤ ε + 4e-15 + 13 / (G.max - G.min : ℝ) + 1 / T := by
  have h4 : (0 : ℝ) < G.max - G.min := by
    have : (G.min : ℝ) < G.max := by exact_mod_cast hG.lt
    linarith
  have : (1 : ℝ) / (G.max - G.min + 1) ≤ 1 / (G.max - G.min) := one_div_le_one_div_of_le h4 (by linarith)
  have e : (13 : ℝ) / (G.max - G.min) = 12 / (G.max - G.min) + 1 / (G.max - G.min) := by ring
  rw [e]
  linarith

theorem pos_nonneg' (hG : G.Sound) : (0 : ℝ) ≤ 12 / (G.max - G.min) := by
  have h4 : (G.min : ℝ) < G.max := by exact_mod_cast hG.lt
  have : (0 : ℝ) < G.max - G.min := by linarith
  positivity

section
variable (hM : M.rnd = ieee 53 (-1074) 1024) (hG : G.Sound) (hE : Equidistributed G e T) (hF : Monotone F)
  (h01 : ∀ t, 0 ≤ F t ∧ F t ≤ 1) (hε : 0 ≤ ε)
include hM hG hE hF h01 hε

theorem of_oo (hl : (G.min, G.max) ∈ libraryRanges)
    (h : ∀ u : ℝ, M.Rep u → 2 ^ (-52 : ℤ) ≤ u → u < 1 → ∃ r, D.draw (fin u) = fin r ∧ |F r - u| ≤ ε) :
    FollowsUpTo (sampleOO D G) e T F (ε + 4e-15 + 13 / (G.max - G.min : ℝ) + 1 / T) := by
  have h5 := pos_nonneg' hG
  refine FollowsUpTo.mono (follows hG hE (fun s => (calls_one (F := float64) (by decide) hG s).1) hF h01 (δ := ε + (12 / (G.max - G.min) + 4e-15))
    (by linarith) fun s => ?_) (sum_le hG)
  obtain ⟨u, eu, hR, h0, h1, ha⟩ := oo_facts hM hG hl s
  obtain ⟨r, er, hr⟩ := h u hR h0 h1
  refine ⟨r, by show D.draw (fin ((uniformoo float64 G s).1 : ℝ)) = _; rw [eu, er], ?_⟩
  obtain ⟨a1, a2⟩ := abs_le.1 hr
  obtain ⟨b1, b2⟩ := abs_le.1 ha
  exact abs_le.2 ⟨by linarith, by linarith⟩

theorem of_oo_rev (hl : (G.min, G.max) ∈ libraryRanges)
    (h : ∀ u : ℝ, M.Rep u → 2 ^ (-52 : ℤ) ≤ u → u < 1 → ∃ r, D.draw (fin u) = fin r ∧ |F r - (1 - u)| ≤ ε) :
    FollowsUpTo (sampleOO D G) e T F (ε + 4e-15 + 13 / (G.max - G.min : ℝ) + 1 / T) := by
  have h5 := pos_nonneg' hG
  refine FollowsUpTo.mono (follows_rev hG hE (fun s => (calls_one (F := float64) (by decide) hG s).1) hF h01 (δ := ε + (12 / (G.max - G.min) + 4e-15))
    (by linarith) fun s => ?_) (sum_le hG)
  obtain ⟨u, eu, hR, h0, h1, ha⟩ := oo_facts hM hG hl s
  obtain ⟨r, er, hr⟩ := h u hR h0 h1
  refine ⟨r, by show D.draw (fin ((uniformoo float64 G s).1 : ℝ)) = _; rw [eu, er], ?_⟩
  obtain ⟨a1, a2⟩ := abs_le.1 hr
  obtain ⟨b1, b2⟩ := abs_le.1 ha
  exact abs_le.2 ⟨by linarith, by linarith⟩

theorem of_oc (h : ∀ u : ℝ, M.Rep u → 2 ^ (-53 : ℤ) ≤ u → u ≤ 1 → ∃ r, D.draw (fin u) = fin r ∧ |F r - (1 - u)| ≤ ε) :
    FollowsUpTo (sampleOC D G) e T F (ε + 4e-15 + 13 / (G.max - G.min : ℝ) + 1 / T) := by
  have h5 := pos_nonneg' hG
  refine FollowsUpTo.mono (follows hG hE (fun s => (calls_one (F := float64) (by decide) hG s).2.1) hF h01 (δ := ε + (12 / (G.max - G.min) + 4e-15))
    (by linarith) fun s => ?_) (sum_le hG)
  obtain ⟨u, eu, hR, h0, h1, ha⟩ := oc_facts hM hG s
  obtain ⟨r, er, hr⟩ := h u hR h0 h1
  refine ⟨r, by show D.draw (fin ((uniformoc float64 G s).1 : ℝ)) = _; rw [eu, er], ?_⟩
  obtain ⟨a1, a2⟩ := abs_le.1 hr
  obtain ⟨b1, b2⟩ := abs_le.1 ha
  exact abs_le.2 ⟨by linarith, by linarith⟩

end

/-- Doubling of a deviate in the upper half is exact. -/
theorem two_exact {M : Machine} {d : ℝ} (D : DoubleWithin M d) {u : ℝ} (h0 : 1 / 2 ≤ u) (h1 : u ≤ 1) (hR : M.Rep u) : M.rnd (2 * u) = fin (2 * u) := by
  rcases h1.eq_or_lt with rfl | h1
  · rw [mul_one, D.rnd]
    exact (ieee_rounding (by norm_num) (by norm_num) (by norm_num)).two
  obtain ⟨n, hn⟩ := Inverse.rep_half D h0 h1 hR
  have h53 : (2 : ℝ) ^ (-53 : ℤ) = 1 / 2 ^ 53 := by norm_num
  have hn0 : 0 < n := by
    have : (0 : ℝ) < n * 2 ^ (-53 : ℤ) := by rw [← hn]; linarith
    exact_mod_cast pos_of_mul_pos_left this (by positivity)
  obtain ⟨k, rfl⟩ := Int.eq_ofNat_of_zero_le hn0.le
  have hk : k < 2 ^ 53 := by
    rw [h53] at hn
    have : (k : ℝ) < 2 ^ 53 := by
      rw [hn] at h1; push_cast at h1; linarith
    exact_mod_cast this
  have := Rounded.dbl_dyadic (n := k) (e := -52) hk (by norm_num) (by norm_num)
  have hk2 : 2 * u = k * 2 ^ (-52 : ℤ) := by
    rw [hn]; push_cast
    rw [show (2 : ℝ) ^ (-52 : ℤ) = 2 * 2 ^ (-53 : ℤ) by norm_num]; ring
  rw [hk2, D.rnd]
  exact this

section
variable (hG : G.Sound) (hE : Equidistributed G e T) (hF : Monotone F) (h01 : ∀ t, 0 ≤ F t ∧ F t ≤ 1) (hε : 0 ≤ ε)
include hG hE hF h01 hε

theorem of_co (h : ∀ u : ℝ, 0 ≤ u → u < 1 → ∃ r, D.draw (fin u) = fin r ∧ |F r - u| ≤ ε) :
    FollowsUpTo (sampleCO D G) e T F (ε + 4e-15 + 13 / (G.max - G.min : ℝ) + 1 / T) := by
  have h5 := pos_nonneg' hG
  refine FollowsUpTo.mono (follows hG hE (fun s => (calls_one (F := float64) (by decide) hG s).2.2.2) hF h01 (δ := ε + (12 / (G.max - G.min) + 4e-15))
    (by linarith) fun s => ?_) (sum_le hG)
  obtain ⟨u, eu, h0, h1, ha⟩ := co_facts hG s
  obtain ⟨r, er, hr⟩ := h u h0 h1
  refine ⟨r, by show D.draw (fin ((uniformco float64 G s).1 : ℝ)) = _; rw [eu, er], ?_⟩
  obtain ⟨a1, a2⟩ := abs_le.1 hr
  obtain ⟨b1, b2⟩ := abs_le.1 ha
  exact abs_le.2 ⟨by linarith, by linarith⟩

theorem of_cc {d : ℝ} (W : DoubleWithin M d) (h : ∀ u : ℝ, 0 ≤ u → u ≤ 1 → (1 / 2 ≤ u → M.rnd (2 * u) = fin (2 * u)) → ∃ r, D.draw (fin u) = fin r ∧ |F r - u| ≤ ε) :
    FollowsUpTo (sampleCC D G) e T F (ε + 4e-15 + 13 / (G.max - G.min : ℝ) + 1 / T) := by
  have h5 := pos_nonneg' hG
  refine FollowsUpTo.mono (follows hG hE (fun s => (calls_one (F := float64) (by decide) hG s).2.2.1) hF h01 (δ := ε + (12 / (G.max - G.min) + 4e-15))
    (by linarith) fun s => ?_) (sum_le hG)
  obtain ⟨u, eu, h0, h1, hR, ha⟩ := cc_facts W.rnd hG s
  obtain ⟨r, er, hr⟩ := h u h0 h1 fun h => two_exact W h h1 (hR h)
  refine ⟨r, by show D.draw (fin ((uniformcc float64 G s).1 : ℝ)) = _; rw [eu, er], ?_⟩
  obtain ⟨a1, a2⟩ := abs_le.1 hr
  obtain ⟨b1, b2⟩ := abs_le.1 ha
  exact abs_le.2 ⟨by linarith, by linarith⟩

end

/-- A correctly rounded library. -/
theorem functions_within : FunctionsWithin doubleMachine 1.2e-16 := by
  have fits : ∀ v : ℝ, |v| ≤ 2 ^ (1023 : ℤ) → Close 1.2e-16 (ieee 53 (-1074) 1024 v) v := fun v hv => by
    obtain ⟨r, er, hr⟩ := Inverse.ieee_err hv
    exact ⟨r, er, hr.trans Inverse.err_le⟩
  have one : (1 : ℝ) ≤ 2 ^ (1023 : ℤ) := one_le_zpow₀ one_le_two (by norm_num)
  have z : ieee 53 (-1074) 1024 0 = fin 0 := (ieee_rounding (by norm_num) (by norm_num) (by norm_num)).zero
  refine ⟨fun x y hx h => ?_, fun y hy => ?_, ?_, fun x => fits _ ((Real.abs_sin_le_one x).trans one), fun x => fits _ ((Real.abs_cos_le_one x).trans one)⟩
  · have e : doubleMachine.pow (fin x) (fin y) = ieee 53 (-1074) 1024 (x ^ y) := by
      show (match XR.pow (fin x) (fin y) with | fin x => ieee 53 (-1074) 1024 x | y => y) = _
      unfold XR.pow
      simp only
      split_ifs with h0
      · rw [h0, Real.rpow_zero]
      · rfl
    rw [e]
    refine fits _ ?_
    rw [abs_of_pos (Real.rpow_pos_of_pos hx y)]
    refine h.trans ?_
    rw [← zpow_natCast]
    exact zpow_le_zpow_right₀ one_le_two (by norm_num)
  · show (match XR.pow (fin 0) (fin y) with | fin x => ieee 53 (-1074) 1024 x | y => y) = _
    unfold XR.pow
    simp only
    rw [if_neg hy.ne', if_neg (lt_irrefl 0), if_pos trivial, if_pos hy]
    exact z
  · show (match XR.ln (fin 1) with | fin x => ieee 53 (-1074) 1024 x | y => y) = _
    rw [ln_fin one_pos, Real.log_one]
    exact z

end Trng.PeriodLaw
