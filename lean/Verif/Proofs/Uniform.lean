import Verif.Proofs.Float
import Verif.Model.Uniform
import Mathlib.Tactic.LinearCombination

/-! Helper lemmas for the uniform deviates. -/
namespace Trng.Uniform
open FP

/-! ### Rounding arguments -/
section core
variable {F : Fmt}

/-- One unit in the last place below 1, halved: `2^-p`. -/
def ulp (F : Fmt) : ℚ := 2 ^ (-(F.p : ℤ))

theorem ulp_pos : 0 < ulp F := two_zpow_pos _

theorem ulp_le {q : Nat} (h : q ≤ F.p) : ulp F ≤ 2 ^ (-(q : ℤ)) := zpow_le_zpow_right₀ (by norm_num) (by omega)

theorem rep_one_sub (hp : 1 ≤ F.p) (k : ℤ) (h0 : 0 ≤ k) (hk : (k : ℚ) * ulp F ≤ 2) (f : ℤ) : Rep F.p (2 ^ f * (1 - k * ulp F)) := by
  have e : (2 : ℚ) ^ f * (1 - k * ulp F) = ((2 ^ F.p - k : ℤ) : ℚ) * 2 ^ (f - F.p) := by
    have h1 : (2 : ℚ) ^ f = 2 ^ F.p * 2 ^ (f - F.p) := by
      rw [← zpow_natCast, ← zpow_split]; congr 1; omega
    have h2 : (2 : ℚ) ^ F.p * ulp F = 1 := by
      rw [ulp, ← zpow_natCast, ← zpow_split, add_neg_cancel, zpow_zero]
    push_cast
    rw [h1]
    linear_combination (-(2 : ℚ) ^ (f - F.p) * k) * h2
  rw [e]
  apply Rep.grid hp
  rw [← e, abs_mul, abs_of_pos (two_zpow_pos f)]
  have := two_zpow_pos f
  have h3 : |1 - (k : ℚ) * ulp F| ≤ 1 := by
    have : (0 : ℚ) ≤ k := by exact_mod_cast h0
    have := mul_nonneg this (ulp_pos (F := F)).le
    rw [abs_le]; constructor <;> linarith
  nlinarith

theorem rep_one_sub' (hp : 1 ≤ F.p) (k : ℤ) (h0 : 0 ≤ k) (hk : (k : ℚ) * ulp F ≤ 2) : Rep F.p (1 - k * ulp F) := by
  have := rep_one_sub hp k h0 hk 0
  simpa using this

/-- A representable number below 1 is at most `1 - 2^-p`. -/
theorem le_of_lt_one {y : ℚ} (h : Rep F.p y) (hy : y < 1) : y ≤ 1 - ulp F := by
  rcases le_or_gt (2 ^ (-1 : ℤ)) |y| with hb | hb
  · rcases le_or_gt y 0 with h0 | h0
    · have : ulp F ≤ 1 := by simpa using ulp_le (F := F) (q := 0) (by omega)
      linarith
    obtain ⟨j, rfl⟩ := h.multiple hb
    rw [show (-1 + 1 - (F.p : ℤ)) = -(F.p : ℤ) by ring] at hy h0 ⊢
    change (j : ℚ) * ulp F < 1 at hy
    change (j : ℚ) * ulp F ≤ 1 - ulp F
    have h2 : (2 : ℚ) ^ F.p * ulp F = 1 := by
      rw [ulp, ← zpow_natCast, ← zpow_split, add_neg_cancel, zpow_zero]
    rw [← h2] at hy
    have hj : (j : ℚ) < 2 ^ F.p := lt_of_mul_lt_mul_right hy ulp_pos.le
    have hj' : j < 2 ^ F.p := by exact_mod_cast hj
    have hj2 : j + 1 ≤ 2 ^ F.p := hj'
    have hj3 : (j : ℚ) + 1 ≤ 2 ^ F.p := by exact_mod_cast hj2
    have := mul_le_mul_of_nonneg_right hj3 (ulp_pos (F := F)).le
    linarith
  · have h1 := le_abs_self y
    rcases Nat.eq_zero_or_pos F.p with h0 | h0
    · obtain ⟨k, e, hk, rfl⟩ := h
      rw [h0, pow_zero] at hk
      have : k = 0 := by have := abs_nonneg k; exact abs_eq_zero.1 (by omega)
      rw [this, ulp, h0]; norm_num
    · have := ulp_le (F := F) (q := 1) h0
      norm_num at this hb
      linarith

variable (hF : Nearest F)
include hF

/-- The rounded reciprocal: position, error and granularity. -/
theorem recip (hp : 1 ≤ F.p) {V : ℚ} {f : ℤ} (h1 : 2 ^ f ≤ V) (h2 : V ≤ 2 ^ (f + 1)) :
    2 ^ (-f) / 2 ≤ F.rnd (1 / V) ∧ F.rnd (1 / V) ≤ 2 ^ (-f) ∧ F.rnd (1 / V) ≤ 1 / V + 2 ^ (-f) * ulp F / 2 ∧
    ∃ j : ℤ, F.rnd (1 / V) = j * (2 ^ (-f) * ulp F) := by
  have hf := two_zpow_pos f
  have hV : 0 < V := lt_of_lt_of_le hf h1
  have e1 : (2 : ℚ) ^ (-f) * 2 ^ f = 1 := by rw [← zpow_split, neg_add_cancel, zpow_zero]
  have e2 : (2 : ℚ) ^ (f + 1) = 2 * 2 ^ f := by rw [zpow_split, zpow_one]; ring
  have hs := two_zpow_pos (-f)
  have a1 : 1 / V ≤ 2 ^ (-f) := by rw [div_le_iff₀ hV]; nlinarith
  have a2 : 2 ^ (-f) / 2 ≤ 1 / V := by rw [le_div_iff₀ hV]; nlinarith
  have e3 : (2 : ℚ) ^ (-f) / 2 = 2 ^ (-f - 1) := by rw [zpow_sub_one₀ (by norm_num)]; ring
  have b2 : 2 ^ (-f) / 2 ≤ F.rnd (1 / V) := by
    rw [e3] at a2 ⊢
    exact hF.ge_of_ge (Rep.two_zpow hp _) a2
  have e4 : (2 : ℚ) ^ (-f - F.p) = 2 ^ (-f) * ulp F := by rw [sub_eq_add_neg, zpow_split]; rfl
  refine ⟨b2, hF.le_of_le (Rep.two_zpow hp _) a1, ?_, ?_⟩
  · have := hF.err hp (x := 1 / V) (f := -f) (by rw [abs_of_pos (by positivity)]; exact a1)
    rw [e4, abs_le] at this
    linarith [this.2]
  · obtain ⟨j, hj⟩ := (hF.rep (1 / V)).multiple (f := -f - 1) (by rw [← e3, abs_of_pos (by linarith)]; exact b2)
    refine ⟨j, ?_⟩
    rw [hj, ← e4]; congr 2; ring

/-- Scaling the rounded reciprocal by a factor `≤ 1 - 2 k 2^-p` lowers it by at least `k` units. -/
theorem recip_mul (hp : 1 ≤ F.p) {V t : ℚ} {f k : ℤ} (h1 : 2 ^ f ≤ V) (h2 : V ≤ 2 ^ (f + 1)) (hk : 0 ≤ k)
    (hk2 : (k : ℚ) * ulp F ≤ 1) (ht : t ≤ 1 - 2 * k * ulp F) :
    F.rnd (F.rnd (1 / V) * t) ≤ F.rnd (1 / V) - k * (2 ^ (-f) * ulp F) := by
  obtain ⟨r1, r2, -, j, hj⟩ := recip hF hp h1 h2
  have hs := two_zpow_pos (-f)
  have hu := ulp_pos (F := F)
  have hk' : (0 : ℚ) ≤ k := by exact_mod_cast hk
  apply hF.le_of_le
  · have e : F.rnd (1 / V) - k * (2 ^ (-f) * ulp F) = ((j - k : ℤ) : ℚ) * 2 ^ (-f - F.p) := by
      rw [hj, sub_eq_add_neg (-f), zpow_split]; push_cast; rw [ulp]; ring
    rw [e]
    apply Rep.grid hp
    rw [← e, abs_le]
    have : k * (2 ^ (-f) * ulp F) ≤ 2 ^ (-f) := by nlinarith
    have : 0 ≤ k * (2 ^ (-f) * ulp F) := by positivity
    constructor <;> linarith
  · have h3 : F.rnd (1 / V) * t ≤ F.rnd (1 / V) * (1 - 2 * k * ulp F) := mul_le_mul_of_nonneg_left ht (by linarith)
    have h4 : k * ulp F * 2 ^ (-f) ≤ k * ulp F * (2 * F.rnd (1 / V)) := mul_le_mul_of_nonneg_left (by linarith) (by positivity)
    linarith

/-- The half-open deviate stays below 1. -/
theorem co_core (hp : 2 ≤ F.p) {V t : ℚ} (hV : 0 < V) (ht : t ≤ 1 - 2 * ulp F) :
    F.rnd (V * F.rnd (F.rnd (1 / V) * t)) < 1 := by
  have hp1 : 1 ≤ F.p := by omega
  obtain ⟨f, h1, h2⟩ : ∃ f : ℤ, (2 : ℚ) ^ f ≤ V ∧ V < 2 ^ (f + 1) :=
    ⟨Int.log 2 V, by exact_mod_cast Int.zpow_log_le_self (b := 2) (by norm_num) hV,
      by exact_mod_cast Int.lt_zpow_succ_log_self (b := 2) (by norm_num) V⟩
  have hu := ulp_pos (F := F)
  have hu4 : ulp F ≤ 1 / 4 := by have := ulp_le (F := F) hp; norm_num at this; linarith
  have hs := two_zpow_pos (-f)
  have e1 : (2 : ℚ) ^ (-f) * 2 ^ f = 1 := by rw [← zpow_split, neg_add_cancel, zpow_zero]
  obtain ⟨r1, r2, r3, -⟩ := recip hF hp1 h1 h2.le
  rcases eq_or_lt_of_le h1 with he | hlt
  · -- V is a power of two
    have hc : F.rnd (1 / V) = 2 ^ (-f) := by
      rw [← he, one_div, ← zpow_neg]; exact hF.exact (Rep.two_zpow hp1 _)
    rw [hc, ← he]
    have hrep : Rep F.p ((2 : ℚ) ^ (-f) * (1 - (2 : ℤ) * ulp F)) := rep_one_sub hp1 2 (by norm_num) (by push_cast; linarith) _
    have hn : F.rnd (2 ^ (-f) * t) ≤ 2 ^ (-f) * (1 - (2 : ℤ) * ulp F) :=
      hF.le_of_le hrep (mul_le_mul_of_nonneg_left (by push_cast; exact ht) hs.le)
    have h3 : (2 : ℚ) ^ f * F.rnd (2 ^ (-f) * t) ≤ 1 - (2 : ℤ) * ulp F := by
      have := mul_le_mul_of_nonneg_left hn (two_zpow_pos f).le
      have e : (2 : ℚ) ^ f * (2 ^ (-f) * (1 - (2 : ℤ) * ulp F)) = 1 - (2 : ℤ) * ulp F := by
        linear_combination (1 - (2 : ℤ) * ulp F) * e1
      rwa [e] at this
    have := hF.le_of_le (rep_one_sub' hp1 2 (by norm_num) (by push_cast; linarith)) h3
    push_cast at this
    linarith
  · have hn := recip_mul hF hp1 (t := t) (k := 1) h1 h2.le (by norm_num) (by push_cast; linarith) (by push_cast; linarith)
    push_cast at hn
    have ha := rep_one_sub' hp1 1 (by norm_num) (by push_cast; linarith)
    push_cast at ha
    apply hF.lt_of_lt_mid ha (by linarith)
    have h3 : F.rnd (F.rnd (1 / V) * t) ≤ 1 / V - 2 ^ (-f) * ulp F / 2 := by linarith
    have h4 := mul_le_mul_of_nonneg_left h3 hV.le
    have h5 : V * (1 / V - 2 ^ (-f) * ulp F / 2) = 1 - V * 2 ^ (-f) * ulp F / 2 := by field_simp
    have h6 : 1 < V * 2 ^ (-f) := by nlinarith
    nlinarith

/-- Nearest representable number below one, on the grid of spacing `2^-p`. -/
theorem grid_round (hp : 2 ≤ F.p) {x : ℚ} (h : x < 1 - 5 / 2 * ulp F) (hu : ulp F ≤ 1 / 32) : F.rnd x ≤ 1 - 3 * ulp F := by
  have hp1 : 1 ≤ F.p := by omega
  have h3 := rep_one_sub' (F := F) hp1 3 (by norm_num) (by push_cast; linarith)
  push_cast at h3
  have hlt : F.rnd x < 1 - 2 * ulp F := hF.lt_of_lt_mid h3 (by linarith [ulp_pos (F := F)]) (by linarith)
  by_contra hc
  push Not at hc
  -- a representable number strictly between neighbours
  obtain ⟨j, hj⟩ := (hF.rep x).multiple (f := -1) (by
    rw [abs_of_pos (by linarith)]; norm_num; linarith)
  rw [show (-1 + 1 - (F.p : ℤ)) = -(F.p : ℤ) by ring] at hj
  change F.rnd x = j * ulp F at hj
  have h2 : (2 : ℚ) ^ F.p * ulp F = 1 := by
    rw [ulp, ← zpow_natCast, ← zpow_split, add_neg_cancel, zpow_zero]
  have hu0 := ulp_pos (F := F)
  rw [hj] at hlt hc
  have a : ((2 ^ F.p - 3 : ℤ) : ℚ) < j := by
    apply lt_of_mul_lt_mul_right _ hu0.le
    push_cast; linarith
  have b : (j : ℚ) < ((2 ^ F.p - 2 : ℤ) : ℚ) := by
    apply lt_of_mul_lt_mul_right _ hu0.le
    push_cast; linarith
  have a' : (2 ^ F.p - 3 : ℤ) < j := by exact_mod_cast a
  have b' : j < (2 ^ F.p - 2 : ℤ) := by exact_mod_cast b
  omega

/-- The open deviate stays below 1 if the largest variate has its leading digits set. -/
theorem oo_core (hp : 5 ≤ F.p) {V t e : ℚ} {f : ℤ} (h1 : 7 / 4 * 2 ^ f ≤ V) (h2 : V ≤ 2 ^ (f + 1)) (ht : t ≤ 1 - 4 * ulp F)
    (he : e ≤ 12 / 5 * ulp F) {y : ℚ} (hy : y ≤ V * F.rnd (F.rnd (1 / V) * t)) : F.rnd (F.rnd y + e) < 1 := by
  have hp1 : 1 ≤ F.p := by omega
  have hu := ulp_pos (F := F)
  have hu4 : ulp F ≤ 1 / 32 := by have := ulp_le (F := F) hp; norm_num at this; linarith
  have hf := two_zpow_pos f
  have hV : 0 < V := by linarith
  have hs := two_zpow_pos (-f)
  have e1 : (2 : ℚ) ^ (-f) * 2 ^ f = 1 := by rw [← zpow_split, neg_add_cancel, zpow_zero]
  have key : y < 1 - 5 / 2 * ulp F := by
    refine lt_of_le_of_lt hy ?_
    obtain ⟨r1, r2, r3, -⟩ := recip hF hp1 (by linarith : (2 : ℚ) ^ f ≤ V) h2
    have hn := recip_mul hF hp1 (t := t) (k := 2) (by linarith : (2 : ℚ) ^ f ≤ V) h2 (by norm_num) (by push_cast; linarith) (by push_cast; linarith)
    push_cast at hn
    have h3 : F.rnd (F.rnd (1 / V) * t) ≤ 1 / V - 3 / 2 * (2 ^ (-f) * ulp F) := by linarith
    have h4 := mul_le_mul_of_nonneg_left h3 hV.le
    have h5 : V * (1 / V - 3 / 2 * (2 ^ (-f) * ulp F)) = 1 - 3 / 2 * (V * 2 ^ (-f)) * ulp F := by field_simp
    have h6 : 7 / 4 ≤ V * 2 ^ (-f) := by nlinarith
    nlinarith
  have hr := grid_round hF (by omega) key hu4
  have ha := rep_one_sub' (F := F) hp1 1 (by norm_num) (by push_cast; linarith)
  push_cast at ha
  exact hF.lt_of_lt_mid ha (by linarith) (by linarith)

/-- The open deviate stays below 1 if the engine's range is small. -/
theorem oo_small (hp : 5 ≤ F.p) {m e : ℚ} (hm2 : 2 ≤ m) (hm : m ≤ 2 ^ (F.p - 2 : ℤ))
    (he : e = F.rnd (1 / m)) {y : ℚ} (hy : y ≤ m * F.rnd (F.rnd (1 / m) * F.rnd (1 - 2 * e))) : F.rnd (F.rnd y + e) < 1 := by
  have hp1 : 1 ≤ F.p := by omega
  have hu := ulp_pos (F := F)
  have hu4 : ulp F ≤ 1 / 32 := by have := ulp_le (F := F) hp; norm_num at this; linarith
  have hm0 : 0 < m := by linarith
  have hx : 4 * ulp F ≤ 1 / m := by
    rw [le_div_iff₀ hm0]
    have : (2 : ℚ) ^ (F.p - 2 : ℤ) * ulp F = 1 / 4 := by
      rw [ulp, ← zpow_split, show ((F.p : ℤ) - 2 + -F.p) = -2 by ring]; norm_num
    nlinarith
  have hx2 : 1 / m ≤ 1 / 2 := by rw [div_le_div_iff₀ hm0 (by norm_num)]; linarith
  set x := 1 / m with hxd
  have hmx : m * x = 1 := by rw [hxd]; field_simp
  have hx0 : 0 < x := by rw [hxd]; positivity
  have he1 := hF.rel hp1 x
  rw [← he, abs_of_pos hx0, abs_le] at he1
  change -(x * ulp F) ≤ e - x ∧ e - x ≤ x * ulp F at he1
  have he2 : e ≤ 1 / 2 := by
    rw [he]; exact hF.le_of_le (by simpa using Rep.two_zpow (p := F.p) hp1 (-1)) hx2
  have he0 : 4 * ulp F - 4 * ulp F * ulp F ≤ e := by nlinarith [he1.1]
  have hA0 : 0 ≤ F.rnd (1 - 2 * e) := hF.nonneg (by linarith)
  have hA : F.rnd (1 - 2 * e) ≤ 1 - 2 * e + ulp F / 2 := by
    have := hF.err hp1 (x := 1 - 2 * e) (f := 0) (by rw [zpow_zero, abs_le]; constructor <;> nlinarith)
    rw [zero_sub, abs_le] at this
    change _ ∧ _ ≤ ulp F / 2 at this
    linarith [this.2]
  set A := F.rnd (1 - 2 * e) with hAd
  rw [← he] at hy
  have hc : e ≤ x * (1 + ulp F) := by linarith [he1.2]
  have hepos : 0 ≤ e := by nlinarith
  have hn : F.rnd (e * A) ≤ e * A * (1 + ulp F) := by
    have := hF.rel hp1 (e * A)
    rw [abs_of_nonneg (mul_nonneg hepos hA0), abs_le] at this
    change _ ∧ _ ≤ e * A * ulp F at this
    linarith [this.2]
  have hn2 : m * F.rnd (e * A) ≤ (1 + ulp F) * (1 + ulp F) * A := by
    have a1 := mul_le_mul_of_nonneg_left hn hm0.le
    have a2 : e * A ≤ x * (1 + ulp F) * A := mul_le_mul_of_nonneg_right hc hA0
    have a3 : m * (e * A * (1 + ulp F)) ≤ m * (x * (1 + ulp F) * A * (1 + ulp F)) := by
      apply mul_le_mul_of_nonneg_left _ hm0.le
      apply mul_le_mul_of_nonneg_right a2 (by linarith)
    have a4 : m * (x * (1 + ulp F) * A * (1 + ulp F)) = (1 + ulp F) * (1 + ulp F) * A := by
      linear_combination ((1 + ulp F) * A * (1 + ulp F)) * hmx
    linarith
  have hB : (1 + ulp F) * (1 + ulp F) * A ≤ (1 + ulp F) * (1 + ulp F) * (1 - 2 * e + ulp F / 2) :=
    mul_le_mul_of_nonneg_left hA (by positivity)
  set u := ulp F with hud
  have hB2 : (1 + u) * (1 + u) * (1 - 2 * e + u / 2) ≤ 1 - 2 * e + 5 / 2 * u + 2 * u * u + u * u * u - 4 * u * e := by
    nlinarith [mul_nonneg hu.le (mul_nonneg hu.le hepos), mul_pos hu (mul_pos hu hu)]
  set Y := (1 + u) * (1 + u) * (1 - 2 * e + u / 2) with hY
  have hue : 4 * u * u - 4 * u * u * u ≤ u * e := by nlinarith
  have hYle : Y ≤ 1 := by nlinarith
  have hY0 : 0 ≤ Y := by rw [hY]; apply mul_nonneg (by positivity); linarith
  have hrY : F.rnd y ≤ Y + u / 2 := by
    have h1 : F.rnd y ≤ F.rnd Y := hF.mono (by linarith)
    have h2 := hF.err hp1 (x := Y) (f := 0) (by rw [zpow_zero, abs_of_nonneg hY0]; exact hYle)
    rw [zero_sub, abs_le] at h2
    change _ ∧ _ ≤ u / 2 at h2
    linarith [h2.2]
  have ha := rep_one_sub' (F := F) hp1 1 (by norm_num) (by push_cast; linarith)
  push_cast at ha
  apply hF.lt_of_lt_mid ha (by linarith)
  have h3 : u * u * u ≤ u * u / 32 := by nlinarith [mul_pos hu hu]
  nlinarith [mul_pos hu hu]

end core
end Trng.Uniform
