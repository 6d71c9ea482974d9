import Verif.Props.Uniform
import Verif.Proofs.PeriodLaw
import Verif.Proofs.RoundedWrong
import Verif.Model.PeriodLaw

/-! The deviates of a period: numbers of type `double`, close to the position of the engine's result in its range. -/
namespace Trng.PeriodLaw
open XR FP Trng.Uniform Trng.Uniform.Traits Spec

variable {σ : Type}

section
variable {F : Fmt} (hF : Nearest F) (hp : 5 ≤ F.p) {G : Gen σ} (hG : G.Sound) (s : σ)
include hF hp hG

theorem eps_le : Traits.eps ⟨F, 1, G.max - G.min⟩ ≤ 3 / (G.max - G.min : ℚ) + 5 * ulp F := by
  set T : Traits := ⟨F, 1, G.max - G.min⟩ with hT
  have hTF : T.F = F := rfl
  have hs : T.max0 < 2 ^ 64 := hG.small
  have h0 : 0 < T.max0 := by have := hG.lt; simp only [hT]; omega
  have e2 : (G.max - G.min : ℚ) = T.max0 := by simp only [hT]; rw [Nat.cast_sub hG.lt.le]
  rw [e2]
  have hu := ulp_pos (F := F)
  have hM1 : (1 : ℚ) ≤ T.domainMax := by exact_mod_cast T.domainMax_pos h0
  have hm0 : (0 : ℚ) < T.max0 := by exact_mod_cast h0
  have hshift : 1 / (T.domainMax : ℚ) ≤ 3 / T.max0 := by
    unfold Traits.domainMax
    split_ifs with hl
    · simp only [Traits.useLLOfShifted, Bool.and_eq_true, beq_iff_eq] at hl
      have h2 : T.max0 ≤ 3 * (T.max0 >>> 1) := by rw [hl.1.2]; omega
      rw [div_le_div_iff₀ (by rw [hl.1.2]; norm_num) hm0]
      have : ((T.max0 : Nat) : ℚ) ≤ ((3 * (T.max0 >>> 1) : Nat) : ℚ) := by exact_mod_cast h2
      push_cast at this ⊢; linarith
    · exact div_le_div_of_nonneg_right (by norm_num) hm0.le
  have hr := (recip_bounds hF hp hM1).2
  have hr2 : F.rnd (1 / F.rnd T.domainMax) ≤ (1 + 3 * ulp F) / T.domainMax := by
    rw [le_div_iff₀ (by linarith)]; linarith
  have hr3 : (1 + 3 * ulp F) / (T.domainMax : ℚ) ≤ 1 / T.domainMax + 3 * ulp F := by
    rw [add_div]
    have : 3 * ulp F / (T.domainMax : ℚ) ≤ 3 * ulp F := div_le_self (by linarith) hM1
    linarith
  have : (0 : ℚ) ≤ 3 / T.max0 := by positivity
  simp only [Traits.eps]
  split_ifs
  · rw [nativeEps_eq, hTF]
    linarith
  · exact hr2.trans (by linarith)

/-- `uniformoo` is the position of the engine's result, up to a few units. -/
theorem oo_accuracy (h2 : 2 ≤ G.max - G.min) :
    |(uniformoo F G s).1 - ((G.call s).1 - G.min : ℚ) / (G.max - G.min)| ≤ 12 / (G.max - G.min) + 32 * ulp F := by
  have hE := eps_le hF hp hG
  set T : Traits := ⟨F, 1, G.max - G.min⟩ with hT
  have hTF : T.F = F := rfl
  have hp1 : 1 ≤ F.p := by omega
  have hs : T.max0 < 2 ^ 64 := hG.small
  have h0 : 0 < T.max0 := by have := hG.lt; simp only [hT]; omega
  have hc1 := T.callsNeeded_one hs h0 hp1 rfl
  have hvm : T.variateMax = F.rnd T.domainMax := by rw [Traits.variateMax, hc1]; rfl
  set x := (G.call s).1 - G.min with hx
  have hxle : x ≤ T.max0 := by have := (hG.range s).2; simp only [hT, hx]; omega
  have hv : (T.variate G s).1 = F.rnd (T.red x) := by
    rw [Traits.variate, hc1]; exact T.addin_eq hs hxle
  have e1 : ((G.call s).1 - G.min : ℚ) = x := by rw [hx, Nat.cast_sub (hG.range s).1]
  have e2 : (G.max - G.min : ℚ) = T.max0 := by simp only [hT]; rw [Nat.cast_sub hG.lt.le]
  rw [e1, e2]
  rw [e2] at hE
  have hu := ulp_pos (F := F)
  have hu5 : ulp F ≤ 1 / 32 := by have := ulp_le (F := F) hp; norm_num at this; linarith
  have hM1 : (1 : ℚ) ≤ T.domainMax := by exact_mod_cast T.domainMax_pos h0
  have he2 : T.eps ≤ 1 / 2 := eps_le_half (T := T) hF (by simp only [hTF]; omega) h2
  have heg : 2 * ulp F ≤ T.eps := eps_ge (T := T)
  have hrep : Rep F.p T.eps := eps_rep (T := T) hF hp1
  have hr2 : F.rnd (2 * T.eps) = 2 * T.eps := hF.exact (by
    have := hrep.scale 1
    rwa [zpow_one, mul_comm] at this)
  have hred : (T.red x : ℚ) ≤ T.domainMax := by exact_mod_cast T.red_le hxle
  have hq := quot_bounds hF hp (r := T.red x) (M := T.domainMax) (e := 2 * T.eps) (by positivity) hred hM1 (by linarith) (by linarith)
  set y := F.rnd (F.rnd (T.red x) * F.rnd (F.rnd (1 / F.rnd T.domainMax) * F.rnd (1 - 2 * T.eps))) with hy
  have hoo : (uniformoo F G s).1 = F.rnd (y + T.eps) := by
    show F.rnd (F.rnd ((T.variate G s).1 * T.ooNorm) + T.eps) = _
    rw [hv, Traits.ooNorm, Traits.ccNorm, hvm, hTF, hr2]
  have hm0 : (0 : ℚ) < T.max0 := by exact_mod_cast h0
  have hshift : |(T.red x : ℚ) / T.domainMax - x / T.max0| ≤ 3 / T.max0 := by
    unfold Traits.red Traits.domainMax
    split_ifs with hl
    · simp only [Traits.useLLOfShifted, Bool.and_eq_true, beq_iff_eq] at hl
      exact uniformco_shift hl.1.2 hs hxle
    · rw [sub_self, abs_zero]; positivity
  have hρ0 : (0 : ℚ) ≤ T.red x / T.domainMax := by positivity
  have hρ1 : (T.red x / T.domainMax : ℚ) ≤ 1 := by rw [div_le_one (by linarith)]; exact hred
  obtain ⟨q1, q2⟩ := abs_le.1 hq
  have hr := hF.rel hp1 (y + T.eps)
  change _ ≤ _ * ulp F at hr
  have hya : |y + T.eps| ≤ 3 := abs_le.2 ⟨by linarith, by linarith⟩
  have hr' : |F.rnd (y + T.eps) - (y + T.eps)| ≤ 3 * ulp F := hr.trans (mul_le_mul_of_nonneg_right hya hu.le)
  rw [hoo]
  obtain ⟨r1, r2⟩ := abs_le.1 hr'
  obtain ⟨s1, s2⟩ := abs_le.1 hshift
  have h12 : (12 : ℚ) / T.max0 = 3 * (3 / T.max0) + 3 / T.max0 := by ring
  rw [h12]
  -- the deviation by `2 eps` downwards is at most `2 eps r / M`, and `eps` is added
  exact abs_le.2 ⟨by linarith, by linarith⟩

theorem oo_ge (h2 : 2 ≤ G.max - G.min) : 2 * ulp F ≤ (uniformoo F G s).1 := by
  set T : Traits := ⟨F, 1, G.max - G.min⟩ with hT
  have hTF : T.F = F := rfl
  have hp1 : 1 ≤ F.p := by omega
  have h0 : 0 < T.max0 := by have := hG.lt; simp only [hT]; omega
  obtain ⟨v0, v1⟩ := variateLoop_range (T := T) hF hp1 hG rfl s (T.callsNeeded - 1)
  have he2 : T.eps ≤ 1 / 2 := eps_le_half (T := T) hF (by simp only [hTF]; omega) h2
  have heg : 2 * ulp F ≤ T.eps := eps_ge (T := T)
  have hrep : Rep F.p T.eps := eps_rep (T := T) hF hp1
  have hr2 : F.rnd (2 * T.eps) = 2 * T.eps := hF.exact (by
    have := hrep.scale 1
    rwa [zpow_one, mul_comm] at this)
  have hoo0 : 0 ≤ T.ooNorm := by
    apply hF.nonneg
    apply mul_nonneg (ccNorm_nonneg (T := T) hF hp1 h0)
    apply hF.nonneg
    rw [hTF, hr2]; linarith
  show 2 * ulp F ≤ F.rnd (F.rnd ((T.variate G s).1 * T.ooNorm) + T.eps)
  refine heg.trans (hF.ge_of_ge hrep ?_)
  have := hF.nonneg (mul_nonneg v0 hoo0)
  exact le_add_of_nonneg_left this

omit hF in
theorem calls_one : (uniformoo F G s).2 = (G.call s).2 ∧ (uniformoc F G s).2 = (G.call s).2 ∧ (uniformcc F G s).2 = (G.call s).2 ∧
    (uniformco F G s).2 = (G.call s).2 := by
  have hc1 := Traits.callsNeeded_one ⟨F, 1, G.max - G.min⟩ hG.small (by have := hG.lt; show 0 < G.max - G.min; omega) (show 1 ≤ F.p by omega) rfl
  have h : (Traits.variate ⟨F, 1, G.max - G.min⟩ G s).2 = (G.call s).2 := by rw [Traits.variate, hc1]; rfl
  refine ⟨h, h, ?_, h⟩
  show (Traits.cc ⟨F, 1, G.max - G.min⟩ G s).2 = _
  simp only [Traits.cc]
  split_ifs <;> exact h

theorem oc_accuracy : |(uniformoc F G s).1 - (1 - ((G.call s).1 - G.min : ℚ) / (G.max - G.min))| ≤ 8 / (G.max - G.min) + 17 * ulp F := by
  have h := C70_uniformco_accuracy hF hp hG s
  obtain ⟨h0, h1⟩ := C47_uniformco hF (by omega) hG s
  have hu := ulp_pos (F := F)
  have hr := hF.rel (by omega) (1 - (uniformco F G s).1)
  change _ ≤ _ * ulp F at hr
  rw [abs_of_pos (by linarith : 0 < 1 - (uniformco F G s).1)] at hr
  have e : (uniformoc F G s).1 = F.rnd (1 - (uniformco F G s).1) := rfl
  rw [e]
  change _ ≤ _ + 16 * ulp F at h
  obtain ⟨a1, a2⟩ := abs_le.1 h
  obtain ⟨b1, b2⟩ := abs_le.1 hr
  have : (1 - (uniformco F G s).1) * ulp F ≤ ulp F := mul_le_of_le_one_left hu.le (by linarith)
  exact abs_le.2 ⟨by linarith, by linarith⟩

theorem cc_accuracy : |(uniformcc F G s).1 - ((G.call s).1 - G.min : ℚ) / (G.max - G.min)| ≤ 8 / (G.max - G.min) + 16 * ulp F := by
  set T : Traits := ⟨F, 1, G.max - G.min⟩ with hT
  have hTF : T.F = F := rfl
  have hp1 : 1 ≤ F.p := by omega
  have hs : T.max0 < 2 ^ 64 := hG.small
  have h0 : 0 < T.max0 := by have := hG.lt; simp only [hT]; omega
  have hc1 := T.callsNeeded_one hs h0 hp1 rfl
  have hvm : T.variateMax = F.rnd T.domainMax := by rw [Traits.variateMax, hc1]; rfl
  set x := (G.call s).1 - G.min with hx
  have hxle : x ≤ T.max0 := by have := (hG.range s).2; simp only [hT, hx]; omega
  have hv : (T.variate G s).1 = F.rnd (T.red x) := by
    rw [Traits.variate, hc1]; exact T.addin_eq hs hxle
  have e1 : ((G.call s).1 - G.min : ℚ) = x := by rw [hx, Nat.cast_sub (hG.range s).1]
  have e2 : (G.max - G.min : ℚ) = T.max0 := by simp only [hT]; rw [Nat.cast_sub hG.lt.le]
  rw [e1, e2]
  have hu := ulp_pos (F := F)
  have hu5 : ulp F ≤ 1 / 32 := by have := ulp_le (F := F) hp; norm_num at this; linarith
  have hM1 : (1 : ℚ) ≤ T.domainMax := by exact_mod_cast T.domainMax_pos h0
  have hred : (T.red x : ℚ) ≤ T.domainMax := by exact_mod_cast T.red_le hxle
  have hm0 : (0 : ℚ) < T.max0 := by exact_mod_cast h0
  have hshift : |(T.red x : ℚ) / T.domainMax - x / T.max0| ≤ 3 / T.max0 := by
    unfold Traits.red Traits.domainMax
    split_ifs with hl
    · simp only [Traits.useLLOfShifted, Bool.and_eq_true, beq_iff_eq] at hl
      exact uniformco_shift hl.1.2 hs hxle
    · rw [sub_self, abs_zero]; positivity
  have h38 : (3 : ℚ) / T.max0 ≤ 8 / T.max0 := div_le_div_of_nonneg_right (by norm_num) hm0.le
  have key : |(uniformcc F G s).1 - (T.red x : ℚ) / T.domainMax| ≤ 16 * ulp F := by
    have hρ0 : (0 : ℚ) ≤ T.red x / T.domainMax := by positivity
    have hρ1 : (T.red x / T.domainMax : ℚ) ≤ 1 := by rw [div_le_one (by linarith)]; exact hred
    show |(T.cc G s).1 - _| ≤ _
    simp only [Traits.cc]
    rw [hvm, hTF]
    split_ifs with hb
    · -- the division
      show |F.rnd ((T.variate G s).1 / F.rnd T.domainMax) - _| ≤ _
      rw [hv]
      obtain ⟨a1, a2⟩ := rnd_bounds hF hp1 (show (0 : ℚ) ≤ T.red x by positivity)
      obtain ⟨b1, b2⟩ := rnd_bounds hF hp1 (show (0 : ℚ) ≤ T.domainMax by positivity)
      set ρ : ℚ := T.red x / T.domainMax with hρ
      set u := ulp F
      have hM0 : (0 : ℚ) < T.domainMax := by linarith
      have hr : (T.red x : ℚ) = ρ * T.domainMax := by rw [hρ]; field_simp
      have hw : (0 : ℚ) < F.rnd T.domainMax := lt_of_lt_of_le (mul_pos hM0 (by linarith)) b1
      have y1 : F.rnd (T.red x) / F.rnd T.domainMax ≤ ρ * (1 + 3 * u) := by
        rw [div_le_iff₀ hw]
        have h1 : ρ * (1 + 3 * u) * (T.domainMax * (1 - u)) ≤ ρ * (1 + 3 * u) * F.rnd T.domainMax := mul_le_mul_of_nonneg_left b1 (by positivity)
        have h2 : ρ * T.domainMax * (1 + u) ≤ ρ * (1 + 3 * u) * (T.domainMax * (1 - u)) := by
          have : 0 ≤ ρ * T.domainMax * (u * (1 - 3 * u)) := mul_nonneg (mul_nonneg hρ0 hM0.le) (mul_nonneg hu.le (by linarith))
          linarith
        rw [hr] at a2 ⊢
        linarith
      have y2 : ρ * (1 - 2 * u) ≤ F.rnd (T.red x) / F.rnd T.domainMax := by
        rw [le_div_iff₀ hw]
        have h1 : ρ * (1 - 2 * u) * F.rnd T.domainMax ≤ ρ * (1 - 2 * u) * (T.domainMax * (1 + u)) := mul_le_mul_of_nonneg_left b2 (mul_nonneg hρ0 (by linarith))
        have h2 : ρ * (1 - 2 * u) * (T.domainMax * (1 + u)) ≤ ρ * T.domainMax * (1 - u) := by
          have : 0 ≤ ρ * T.domainMax * (2 * u * u) := mul_nonneg (mul_nonneg hρ0 hM0.le) (by positivity)
          linarith
        rw [hr] at a1 ⊢
        linarith
      set y := F.rnd (T.red x) / F.rnd T.domainMax
      have hρu : ρ * u ≤ u := mul_le_of_le_one_left hu.le hρ1
      have y0 : 0 ≤ y := le_trans (mul_nonneg hρ0 (by linarith)) y2
      have hy2 : y ≤ 2 := by linarith
      obtain ⟨c1, c2⟩ := rnd_bounds hF hp1 y0
      have hyu : y * u ≤ 2 * u := mul_le_mul_of_nonneg_right hy2 hu.le
      change y * (1 - u) ≤ _ at c1
      change _ ≤ y * (1 + u) at c2
      exact abs_le.2 ⟨by linarith, by linarith⟩
    · show |F.rnd ((T.variate G s).1 * T.ccNorm) - _| ≤ _
      have hq := quot_bounds hF hp (r := T.red x) (M := T.domainMax) (e := 0) (by positivity) hred hM1 le_rfl zero_le_one
      have r1 : F.rnd 1 = 1 := hF.exact (by simpa using Rep.two_zpow (p := F.p) hp1 0)
      rw [sub_zero, r1, mul_one, hF.exact (hF.rep _)] at hq
      rw [hv, Traits.ccNorm, hvm, hTF]
      refine hq.trans (by linarith)
  have := abs_add_le ((uniformcc F G s).1 - (T.red x : ℚ) / T.domainMax) ((T.red x : ℚ) / T.domainMax - x / T.max0)
  rw [sub_add_sub_cancel] at this
  linarith

theorem oc_ge : ulp F ≤ (uniformoc F G s).1 := by
  obtain ⟨h0, h1⟩ := C47_uniformco hF (by omega) hG s
  have hrep : Rep F.p (uniformco F G s).1 := hF.rep _
  have h2 := le_of_lt_one hrep h1
  show ulp F ≤ F.rnd (1 - (uniformco F G s).1)
  have hu : Rep F.p (ulp F) := Rep.two_zpow (by omega) _
  exact hF.ge_of_ge hu (by linarith)

end

theorem cast_zpow {n : ℤ} {q : ℚ} (h : (2 : ℚ) ^ n ≤ q) : (2 : ℝ) ^ n ≤ q := by
  have := (Rat.cast_le (K := ℝ)).2 h
  rwa [Rat.cast_zpow, Rat.cast_ofNat] at this

/-- A positive number with 53 digits, not too small and at most 1, is a `double`. -/
theorem rep_double {M : Machine} (hM : M.rnd = ieee 53 (-1074) 1024) {u : ℚ} (hr : Rep 53 u) (h0 : 2 ^ (-53 : ℤ) ≤ u) (h1 : u ≤ 1) : M.Rep (u : ℝ) := by
  obtain ⟨k, e, hk, rfl⟩ := hr
  have p : (0 : ℚ) < 2 ^ e := by positivity
  have p53 : (0 : ℚ) < 2 ^ (-53 : ℤ) := by positivity
  have hk0 : 0 < k := by
    have : (0 : ℚ) < k * 2 ^ e := p53.trans_le h0
    exact_mod_cast pos_of_mul_pos_left this p.le
  obtain ⟨n, rfl⟩ := Int.eq_ofNat_of_zero_le hk0.le
  have hn : n < 2 ^ 53 := by
    rw [abs_of_pos hk0] at hk
    exact_mod_cast hk
  have hn1 : (1 : ℚ) ≤ n := by exact_mod_cast hk0
  have he1 : e ≤ 971 := by
    by_contra hc
    have : (2 : ℚ) ^ (1 : ℤ) ≤ 2 ^ e := zpow_le_zpow_right₀ (by norm_num) (by omega)
    norm_num at this h1
    nlinarith
  have he0 : -1074 ≤ e := by
    by_contra hc
    have a : (2 : ℚ) ^ e ≤ 2 ^ (-107 : ℤ) := zpow_le_zpow_right₀ (by norm_num) (by omega)
    have b : (n : ℚ) ≤ 2 ^ (53 : ℕ) := by exact_mod_cast hn.le
    have c : ((n : ℤ) : ℚ) * 2 ^ e ≤ 2 ^ (53 : ℕ) * 2 ^ (-107 : ℤ) := by
      rw [Int.cast_natCast]
      exact mul_le_mul b a p.le (by norm_num)
    have := h0.trans c
    norm_num at this
  have := Rounded.dbl_dyadic hn he0 he1
  unfold Machine.Rep
  rw [hM]
  push_cast
  exact this

section
variable {M : Machine} (hM : M.rnd = ieee 53 (-1074) 1024) {G : Gen σ} (hG : G.Sound) (hl : (G.min, G.max) ∈ libraryRanges) (s : σ)
include hM hG hl

omit hM hG in
theorem range_ge : 2 ≤ G.max - G.min := by
  have key : ∀ q ∈ libraryRanges, 2 ≤ q.2 - q.1 := by decide
  exact key _ hl

/-- The deviates of `uniformoo<double>`. -/
theorem oo_facts : ∃ u : ℝ, ((uniformoo float64 G s).1 : ℝ) = u ∧ M.Rep u ∧ 2 ^ (-52 : ℤ) ≤ u ∧ u < 1 ∧
    |u - pos G s| ≤ 12 / (G.max - G.min) + 4e-15 := by
  have h2 := range_ge hl
  obtain ⟨h0, h1⟩ := C47_uniformoo_library float64_nearest (by decide) hG hl s
  have hge := oo_ge float64_nearest (by decide) hG s h2
  have hacc := oo_accuracy float64_nearest (by decide) hG s h2
  have eu : ulp float64 = 2 ^ (-53 : ℤ) := rfl
  rw [eu] at hge hacc
  have hge' : (2 : ℚ) ^ (-52 : ℤ) ≤ (uniformoo float64 G s).1 := le_trans (by norm_num) hge
  refine ⟨_, rfl, rep_double hM (float64_nearest.rep _) (le_trans (by norm_num) hge') h1.le, cast_zpow hge', by exact_mod_cast h1, ?_⟩
  have : |((uniformoo float64 G s).1 : ℝ) - pos G s| ≤ ((12 / (G.max - G.min) + 32 * 2 ^ (-53 : ℤ) : ℚ) : ℝ) := by
    have := (Rat.cast_le (K := ℝ)).2 hacc
    rw [Rat.cast_abs] at this
    refine le_trans (le_of_eq ?_) this
    rw [pos]; push_cast; rfl
  refine this.trans ?_
  push_cast
  have : (32 : ℝ) * 2 ^ (-53 : ℤ) ≤ 4e-15 := by norm_num
  linarith

omit hM hl in
/-- The deviates of `uniformco<double>`. -/
theorem co_facts : ∃ u : ℝ, ((uniformco float64 G s).1 : ℝ) = u ∧ 0 ≤ u ∧ u < 1 ∧ |u - pos G s| ≤ 12 / (G.max - G.min) + 4e-15 := by
  obtain ⟨h0, h1⟩ := C47_uniformco float64_nearest (by decide) hG s
  have hacc := C70_uniformco_accuracy float64_nearest (by decide) hG s
  change _ ≤ _ + 16 * 2 ^ (-53 : ℤ) at hacc
  refine ⟨_, rfl, by exact_mod_cast h0, by exact_mod_cast h1, ?_⟩
  have : |((uniformco float64 G s).1 : ℝ) - pos G s| ≤ ((8 / (G.max - G.min) + 16 * 2 ^ (-53 : ℤ) : ℚ) : ℝ) := by
    have := (Rat.cast_le (K := ℝ)).2 hacc
    rw [Rat.cast_abs] at this
    refine le_trans (le_of_eq ?_) this
    rw [pos]; push_cast; rfl
  refine this.trans ?_
  push_cast
  have h3 : (16 : ℝ) * 2 ^ (-53 : ℤ) ≤ 4e-15 := by norm_num
  have h4 : (0 : ℝ) < G.max - G.min := by
    have : (G.min : ℝ) < G.max := by exact_mod_cast hG.lt
    linarith
  have h5 : (8 : ℝ) / (G.max - G.min) ≤ 12 / (G.max - G.min) := div_le_div_of_nonneg_right (by norm_num) h4.le
  linarith

omit hl in
/-- The deviates of `uniformcc<double>`. -/
theorem cc_facts : ∃ u : ℝ, ((uniformcc float64 G s).1 : ℝ) = u ∧ 0 ≤ u ∧ u ≤ 1 ∧ (1 / 2 ≤ u → M.Rep u) ∧ |u - pos G s| ≤ 12 / (G.max - G.min) + 4e-15 := by
  obtain ⟨h0, h1⟩ := C47_uniformcc float64_nearest (by decide) hG s
  have hacc := cc_accuracy float64_nearest (by decide) hG s
  have eu : ulp float64 = 2 ^ (-53 : ℤ) := rfl
  rw [eu] at hacc
  have hrep : Rep 53 (uniformcc float64 G s).1 := by
    show Rep 53 (Traits.cc ⟨float64, 1, G.max - G.min⟩ G s).1
    simp only [Traits.cc]
    split_ifs <;> exact float64_nearest.rep _
  refine ⟨_, rfl, by exact_mod_cast h0, by exact_mod_cast h1, fun h2 => rep_double hM hrep ?_ h1, ?_⟩
  · have : ((1 / 2 : ℚ) : ℝ) ≤ ((uniformcc float64 G s).1 : ℝ) := by push_cast; exact h2
    have := (Rat.cast_le (K := ℝ)).1 this
    exact le_trans (by norm_num) this
  have : |((uniformcc float64 G s).1 : ℝ) - pos G s| ≤ ((8 / (G.max - G.min) + 16 * 2 ^ (-53 : ℤ) : ℚ) : ℝ) := by
    have := (Rat.cast_le (K := ℝ)).2 hacc
    rw [Rat.cast_abs] at this
    refine le_trans (le_of_eq ?_) this
    rw [pos]; push_cast; rfl
  refine this.trans ?_
  push_cast
  have h3 : (16 : ℝ) * 2 ^ (-53 : ℤ) ≤ 4e-15 := by norm_num
  have h4 : (0 : ℝ) < G.max - G.min := by
    have : (G.min : ℝ) < G.max := by exact_mod_cast hG.lt
    linarith
  have h5 : (8 : ℝ) / (G.max - G.min) ≤ 12 / (G.max - G.min) := div_le_div_of_nonneg_right (by norm_num) h4.le
  linarith

omit hl in
/-- The deviates of `uniformoc<double>`. -/
theorem oc_facts : ∃ u : ℝ, ((uniformoc float64 G s).1 : ℝ) = u ∧ M.Rep u ∧ 2 ^ (-53 : ℤ) ≤ u ∧ u ≤ 1 ∧
    |u - (1 - pos G s)| ≤ 12 / (G.max - G.min) + 4e-15 := by
  obtain ⟨h0, h1⟩ := C47_uniformoc float64_nearest (by decide) hG s
  have hge := oc_ge float64_nearest (by decide) hG s
  have hacc := oc_accuracy float64_nearest (by decide) hG s
  have eu : ulp float64 = 2 ^ (-53 : ℤ) := rfl
  rw [eu] at hge hacc
  refine ⟨_, rfl, rep_double hM (float64_nearest.rep _) hge h1, cast_zpow hge, by exact_mod_cast h1, ?_⟩
  have : |((uniformoc float64 G s).1 : ℝ) - (1 - pos G s)| ≤ ((8 / (G.max - G.min) + 17 * 2 ^ (-53 : ℤ) : ℚ) : ℝ) := by
    have := (Rat.cast_le (K := ℝ)).2 hacc
    rw [Rat.cast_abs] at this
    refine le_trans (le_of_eq ?_) this
    rw [pos]; push_cast; rfl
  refine this.trans ?_
  push_cast
  have h3 : (17 : ℝ) * 2 ^ (-53 : ℤ) ≤ 4e-15 := by norm_num
  have h4 : (0 : ℝ) < G.max - G.min := by
    have : (G.min : ℝ) < G.max := by exact_mod_cast hG.lt
    linarith
  have h5 : (8 : ℝ) / (G.max - G.min) ≤ 12 / (G.max - G.min) := div_le_div_of_nonneg_right (by norm_num) h4.le
  linarith

end

end Trng.PeriodLaw
