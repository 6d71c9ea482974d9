import Verif.Proofs.UniformTraits

/-! Accuracy and monotonicity of the deviates; truncation of scaled deviates. -/
namespace Trng.Uniform
open FP

theorem pow_up {u : ℚ} (h0 : 0 ≤ u) (h : u ≤ 1 / 32) : (1 + 3 * u) * (1 + u) * (1 + u) * ((1 + u) * (1 + u)) ≤ 1 + 8 * u := by
  have q1 : (1 + u) * (1 + u) ≤ 1 + 33 / 16 * u := by nlinarith
  have q2 : (1 + u) * (1 + u) * ((1 + u) * (1 + u)) ≤ (1 + 33 / 16 * u) * (1 + 33 / 16 * u) :=
    mul_le_mul q1 q1 (by positivity) (by positivity)
  have q3 : (1 + 33 / 16 * u) * (1 + 33 / 16 * u) ≤ 1 + 69 / 16 * u := by nlinarith
  calc _ = (1 + 3 * u) * ((1 + u) * (1 + u) * ((1 + u) * (1 + u))) := by ring
    _ ≤ (1 + 3 * u) * (1 + 69 / 16 * u) := mul_le_mul_of_nonneg_left (q2.trans q3) (by positivity)
    _ ≤ _ := by nlinarith

theorem pow_low {u : ℚ} (h0 : 0 ≤ u) (h : u ≤ 1 / 32) :
    1 - 6 * u ≤ (1 - u) * (1 - u) * (1 - u) * (1 - u) * ((1 - u) * (1 - u)) := by
  have q1 : 1 - 2 * u ≤ (1 - u) * (1 - u) := by nlinarith
  have q2 : (1 - 2 * u) * (1 - 2 * u) ≤ (1 - u) * (1 - u) * ((1 - u) * (1 - u)) :=
    mul_le_mul q1 q1 (by linarith) (by nlinarith)
  have q3 : (1 - 4 * u) * (1 - 2 * u) ≤ (1 - u) * (1 - u) * ((1 - u) * (1 - u)) * ((1 - u) * (1 - u)) :=
    mul_le_mul (by nlinarith) q1 (by linarith) (by nlinarith)
  calc _ ≤ (1 - 4 * u) * (1 - 2 * u) := by nlinarith
    _ ≤ _ := q3
    _ = _ := by ring

section
variable {F : Fmt} (hF : Nearest F)
include hF

/-- A deviate below 1 times a rounded positive factor stays below the factor. -/
theorem scaled_lt (hp : 2 ≤ F.p) {y x : ℚ} (hy : Rep F.p y) (hy1 : y < 1) (hx : 0 < x) : F.rnd (y * F.rnd x) < x := by
  have hp1 : 1 ≤ F.p := by omega
  have hu := ulp_pos (F := F)
  have hu4 : ulp F ≤ 1 / 4 := by have := ulp_le (F := F) hp; norm_num at this; linarith
  have hyu := le_of_lt_one hy hy1
  -- the rounded factor is positive
  have hX : 0 < F.rnd x := by
    have h1 : (2 : ℚ) ^ Int.log 2 x ≤ x := by exact_mod_cast Int.zpow_log_le_self (b := 2) (by norm_num) hx
    exact lt_of_lt_of_le (two_zpow_pos _) (hF.ge_of_ge (Rep.two_zpow hp1 _) h1)
  obtain ⟨f, h1, h2⟩ : ∃ f : ℤ, (2 : ℚ) ^ f ≤ F.rnd x ∧ F.rnd x < 2 ^ (f + 1) :=
    ⟨Int.log 2 (F.rnd x), by exact_mod_cast Int.zpow_log_le_self (b := 2) (by norm_num) hX,
      by exact_mod_cast Int.lt_zpow_succ_log_self (b := 2) (by norm_num) (F.rnd x)⟩
  have hf := two_zpow_pos f
  have hprod : y * F.rnd x ≤ (1 - ulp F) * F.rnd x := mul_le_mul_of_nonneg_right hyu hX.le
  have hxabs : |x| = x := abs_of_pos hx
  rcases eq_or_lt_of_le h1 with he | hlt
  · have hrep : Rep F.p ((2 : ℚ) ^ f * (1 - (1 : ℤ) * ulp F)) := rep_one_sub hp1 1 (by norm_num) (by push_cast; linarith) _
    push_cast at hrep
    have hr : F.rnd (y * F.rnd x) ≤ 2 ^ f * (1 - 1 * ulp F) := hF.le_of_le hrep (by rw [← he] at hprod ⊢; linarith)
    rcases le_or_gt ((2 : ℚ) ^ f) x with hc | hc
    · nlinarith
    · have := hF.err hp1 (x := x) (f := f) (by rw [hxabs]; exact hc.le)
      rw [← he, sub_eq_add_neg f, zpow_split, abs_le] at this
      change _ ∧ _ ≤ 2 ^ f * ulp F / 2 at this
      nlinarith [this.2]
  · have e4 : (2 : ℚ) ^ (f + 1 - F.p) = 2 * (2 ^ f * ulp F) := by
      rw [sub_eq_add_neg, zpow_split, zpow_split, zpow_one, ulp]; ring
    set g := (2 : ℚ) ^ (f + 1 - F.p) with hg
    have hg0 : 0 < g := two_zpow_pos _
    obtain ⟨j, hj⟩ := (hF.rep x).multiple (f := f) (by rw [abs_of_pos hX]; exact h1)
    obtain ⟨i, hi⟩ := (Rep.two_zpow (p := F.p) hp1 f).multiple (f := f) (by rw [abs_of_pos hf])
    rw [← hg] at hj hi
    have hij : i < j := by
      have : (i : ℚ) * g < j * g := by rw [← hi, ← hj]; exact hlt
      exact_mod_cast lt_of_mul_lt_mul_right this hg0.le
    have hij' : (i : ℚ) ≤ j - 1 := by
      have : i ≤ j - 1 := by omega
      exact_mod_cast this
    have hlow : (2 : ℚ) ^ f ≤ F.rnd x - g := by rw [hi, hj]; nlinarith
    have hrep : Rep F.p (F.rnd x - g) := by
      have e : F.rnd x - g = ((j - 1 : ℤ) : ℚ) * 2 ^ (f + 1 - F.p) := by rw [hj, ← hg]; push_cast; ring
      rw [e]
      apply Rep.grid hp1
      rw [← e, abs_of_pos (by linarith)]; linarith
    have hltX : F.rnd (y * F.rnd x) < F.rnd x := by
      apply hF.lt_of_lt_mid hrep (by linarith)
      nlinarith
    have hle : F.rnd (y * F.rnd x) ≤ F.rnd x - g := by
      by_contra hc
      push Not at hc
      obtain ⟨k, hk⟩ := (hF.rep (y * F.rnd x)).multiple (f := f) (by rw [abs_of_pos (by linarith)]; linarith)
      rw [← hg] at hk
      rw [hk, hj] at hltX hc
      have a : (k : ℚ) < j := lt_of_mul_lt_mul_right hltX hg0.le
      have b : ((j - 1 : ℤ) : ℚ) < k := by
        apply lt_of_mul_lt_mul_right _ hg0.le
        push_cast; linarith
      have a' : k < j := by exact_mod_cast a
      have b' : j - 1 < k := by exact_mod_cast b
      omega
    rcases le_or_gt ((2 : ℚ) ^ (f + 1)) x with hc | hc
    · linarith
    · have := hF.err hp1 (x := x) (f := f + 1) (by rw [hxabs]; exact hc.le)
      rw [← hg, abs_le] at this
      linarith [this.2]

/-- Truncating a scaled deviate gives an integer in `[0, x)`. -/
theorem toInteger_scaled (hp : 2 ≤ F.p) {y : ℚ} {x lo hi : ℤ} (hy : Rep F.p y) (hy0 : 0 ≤ y) (hy1 : y < 1) (hx : 0 < x)
    (hlo : lo ≤ 0) (hhi : x - 1 ≤ hi) : ∃ k, toInteger lo hi (F.rnd (y * F.rnd x)) = some k ∧ 0 ≤ k ∧ k < x := by
  have hxq : (0 : ℚ) < x := by exact_mod_cast hx
  have h1 := scaled_lt hF hp hy hy1 hxq
  have h0 : 0 ≤ F.rnd (y * F.rnd x) := hF.nonneg (mul_nonneg hy0 (hF.nonneg hxq.le))
  have hk0 : 0 ≤ ⌊F.rnd (y * F.rnd x)⌋ := Int.floor_nonneg.2 h0
  have hkx : ⌊F.rnd (y * F.rnd x)⌋ < x := Int.floor_lt.2 h1
  refine ⟨⌊F.rnd (y * F.rnd x)⌋, ?_, hk0, hkx⟩
  unfold toInteger
  rw [if_pos h0]
  exact if_pos ⟨by omega, by omega⟩

/-- Relative bounds of one rounding. -/
theorem rnd_bounds (hp : 1 ≤ F.p) {x : ℚ} (hx : 0 ≤ x) : x * (1 - ulp F) ≤ F.rnd x ∧ F.rnd x ≤ x * (1 + ulp F) := by
  have := hF.rel hp x
  rw [abs_of_nonneg hx, abs_le] at this
  change -(x * ulp F) ≤ _ ∧ _ ≤ x * ulp F at this
  constructor <;> linarith [this.1, this.2]

/-- Rounded reciprocal, relative bounds. -/
theorem recip_bounds (hp : 5 ≤ F.p) {M : ℚ} (hM : 1 ≤ M) :
    (1 - ulp F) * (1 - ulp F) ≤ M * F.rnd (1 / F.rnd M) ∧ M * F.rnd (1 / F.rnd M) ≤ 1 + 3 * ulp F := by
  have hu := ulp_pos (F := F)
  have hu5 : ulp F ≤ 1 / 32 := by have := ulp_le (F := F) hp; norm_num at this; linarith
  obtain ⟨a1, a2⟩ := rnd_bounds hF (by omega) (by linarith : (0 : ℚ) ≤ M)
  have hV : 0 < F.rnd M := by nlinarith
  obtain ⟨b1, b2⟩ := rnd_bounds hF (by omega) (by positivity : (0 : ℚ) ≤ 1 / F.rnd M)
  have c1 : 1 - ulp F ≤ M * (1 / F.rnd M) := by
    rw [mul_one_div, le_div_iff₀ hV]
    nlinarith
  have c2 : M * (1 / F.rnd M) * (1 - ulp F) ≤ 1 := by
    rw [mul_one_div, div_mul_eq_mul_div, div_le_iff₀ hV]
    linarith
  constructor
  · calc (1 - ulp F) * (1 - ulp F) ≤ M * (1 / F.rnd M) * (1 - ulp F) := mul_le_mul_of_nonneg_right c1 (by linarith)
      _ = M * (1 / F.rnd M * (1 - ulp F)) := by ring
      _ ≤ _ := mul_le_mul_of_nonneg_left b1 (by linarith)
  · have h1 : M * F.rnd (1 / F.rnd M) ≤ M * (1 / F.rnd M) * (1 + ulp F) := by
      calc _ ≤ M * (1 / F.rnd M * (1 + ulp F)) := mul_le_mul_of_nonneg_left b2 (by linarith)
        _ = _ := by ring
    refine h1.trans ?_
    set q := M * (1 / F.rnd M)
    have hq : 0 < q := by have : 0 < M := by linarith
                          positivity
    have hq2 : q ≤ 1 + 33 / 31 * ulp F := by nlinarith
    nlinarith

/-- Accuracy of `r / M` computed as the library does, `t` being the (rounded) factor 1 - eps. -/
theorem quot_bounds (hp : 5 ≤ F.p) {r M e : ℚ} (hr : 0 ≤ r) (hrM : r ≤ M) (hM : 1 ≤ M) (he0 : 0 ≤ e) (he1 : e ≤ 1) :
    |F.rnd (F.rnd r * F.rnd (F.rnd (1 / F.rnd M) * F.rnd (1 - e))) - r / M| ≤ e + 8 * ulp F := by
  have hu := ulp_pos (F := F)
  have hu5 : ulp F ≤ 1 / 32 := by have := ulp_le (F := F) hp; norm_num at this; linarith
  have hp1 : 1 ≤ F.p := by omega
  obtain ⟨a1, a2⟩ := rnd_bounds hF hp1 hr
  obtain ⟨b1, b2⟩ := recip_bounds hF hp hM
  obtain ⟨c1, c2⟩ := rnd_bounds hF hp1 (by linarith : (0 : ℚ) ≤ 1 - e)
  set u := ulp F with hu'
  set c := F.rnd (1 / F.rnd M) with hc
  set A := F.rnd (1 - e) with hA
  have hA0 : 0 ≤ A := hF.nonneg (by linarith)
  have hc0 : 0 ≤ c := hF.nonneg (div_nonneg zero_le_one (hF.nonneg (by linarith)))
  obtain ⟨d1, d2⟩ := rnd_bounds hF hp1 (mul_nonneg hc0 hA0)
  rw [← hu'] at d1 d2
  set n := F.rnd (c * A) with hn
  have hn0 : 0 ≤ n := hF.nonneg (mul_nonneg hc0 hA0)
  have hv0 : 0 ≤ F.rnd r := hF.nonneg hr
  obtain ⟨f1, f2⟩ := rnd_bounds hF hp1 (mul_nonneg hv0 hn0)
  rw [← hu'] at f1 f2
  have hM0 : 0 < M := by linarith
  set ρ := r / M with hρ
  have hρ0 : 0 ≤ ρ := by positivity
  have hρ1 : ρ ≤ 1 := by rw [hρ, div_le_one hM0]; exact hrM
  have hrρ : r = ρ * M := by rw [hρ]; field_simp
  -- M n between (1-u)^4 (1-e) and (1+3u)(1+u)^2 (1-e)
  have hMc0 : 0 ≤ M * c := mul_nonneg hM0.le hc0
  have hMn1 : (1 - u) * (1 - u) * ((1 - e) * (1 - u)) * (1 - u) ≤ M * n := by
    have h1 : (1 - u) * (1 - u) * ((1 - e) * (1 - u)) ≤ M * c * A :=
      mul_le_mul b1 c1 (mul_nonneg (by linarith) (by linarith)) hMc0
    have h2 : M * c * A * (1 - u) ≤ M * n := by
      have := mul_le_mul_of_nonneg_left d1 hM0.le
      linarith
    exact le_trans (mul_le_mul_of_nonneg_right h1 (by linarith)) h2
  have hMn2 : M * n ≤ (1 + 3 * u) * ((1 - e) * (1 + u)) * (1 + u) := by
    have h1 : M * c * A ≤ (1 + 3 * u) * ((1 - e) * (1 + u)) := mul_le_mul b2 c2 hA0 (by linarith)
    have h2 : M * n ≤ M * c * A * (1 + u) := by
      have := mul_le_mul_of_nonneg_left d2 hM0.le
      linarith
    exact h2.trans (mul_le_mul_of_nonneg_right h1 (by linarith))
  have hMn0 : 0 ≤ M * n := mul_nonneg hM0.le hn0
  have up : F.rnd (F.rnd r * n) ≤ ρ * ((1 + 3 * u) * ((1 - e) * (1 + u)) * (1 + u) * ((1 + u) * (1 + u))) := by
    have h1 : F.rnd r * n ≤ r * (1 + u) * n := mul_le_mul_of_nonneg_right a2 hn0
    have h2 : r * (1 + u) * n = ρ * (M * n) * (1 + u) := by rw [hrρ]; ring
    have h3 : ρ * (M * n) ≤ ρ * ((1 + 3 * u) * ((1 - e) * (1 + u)) * (1 + u)) := mul_le_mul_of_nonneg_left hMn2 hρ0
    have h4 : F.rnd r * n * (1 + u) ≤ ρ * (M * n) * (1 + u) * (1 + u) := by
      rw [← h2]; exact mul_le_mul_of_nonneg_right h1 (by linarith)
    have h5 : ρ * (M * n) * ((1 + u) * (1 + u)) ≤ ρ * ((1 + 3 * u) * ((1 - e) * (1 + u)) * (1 + u)) * ((1 + u) * (1 + u)) :=
      mul_le_mul_of_nonneg_right h3 (mul_nonneg (by linarith) (by linarith))
    linarith
  have lo : ρ * ((1 - u) * (1 - u) * ((1 - e) * (1 - u)) * (1 - u) * ((1 - u) * (1 - u))) ≤ F.rnd (F.rnd r * n) := by
    have h1 : r * (1 - u) * n ≤ F.rnd r * n := mul_le_mul_of_nonneg_right a1 hn0
    have h2 : r * (1 - u) * n = ρ * (M * n) * (1 - u) := by rw [hrρ]; ring
    have h3 : ρ * ((1 - u) * (1 - u) * ((1 - e) * (1 - u)) * (1 - u)) ≤ ρ * (M * n) := mul_le_mul_of_nonneg_left hMn1 hρ0
    have h4 : ρ * (M * n) * (1 - u) * (1 - u) ≤ F.rnd r * n * (1 - u) := by
      rw [← h2]; exact mul_le_mul_of_nonneg_right h1 (by linarith)
    have h5 : ρ * ((1 - u) * (1 - u) * ((1 - e) * (1 - u)) * (1 - u)) * ((1 - u) * (1 - u)) ≤ ρ * (M * n) * ((1 - u) * (1 - u)) :=
      mul_le_mul_of_nonneg_right h3 (mul_nonneg (by linarith) (by linarith))
    linarith
  have pu := pow_up hu.le hu5
  have pl := pow_low hu.le hu5
  have hre : ρ * (1 - e) ≤ 1 := mul_le_one₀ hρ1 (by linarith) (by linarith)
  have hre0 : 0 ≤ ρ * (1 - e) := mul_nonneg hρ0 (by linarith)
  have h1 : ρ * e ≤ e := mul_le_of_le_one_left he0 hρ1
  have h2 : u * (ρ * (1 - e)) ≤ u := mul_le_of_le_one_right hu.le hre
  have h3 : 0 ≤ ρ * e := mul_nonneg hρ0 he0
  have low : ρ * (1 - e) * (1 - 6 * u) ≤ F.rnd (F.rnd r * n) := by
    refine le_trans (mul_le_mul_of_nonneg_left pl hre0) (le_trans (le_of_eq ?_) lo)
    ring
  have upp : F.rnd (F.rnd r * n) ≤ ρ * (1 - e) * (1 + 8 * u) := by
    refine le_trans (le_trans up (le_of_eq ?_)) (mul_le_mul_of_nonneg_left pu hre0)
    ring
  clear lo up pl pu hMn1 hMn2
  rw [abs_le]
  constructor <;> linarith

end
end Trng.Uniform
