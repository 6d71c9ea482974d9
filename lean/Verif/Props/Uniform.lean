import Verif.Proofs.UniformAcc
import Verif.Model.LCG64

import Verif.Model.MRG

/-! C47, C48, C49, C50, C70, C71: uniform deviates in floating-point arithmetic. `F` is any binary
floating-point type of at least 2 (5) digits with any rounding to nearest. -/
namespace Trng
open FP Uniform Uniform.Traits

variable {σ : Type}

/-! ### Concrete engines used as witnesses -/

/-- lcg64 as seen by uniformxx.hpp. -/
def genLCG64 : Gen LCG64 := ⟨fun s => (((LCG64.call s).1).toNat, (LCG64.call s).2), 0, 2 ^ 64 - 1⟩

theorem genLCG64_sound : genLCG64.Sound :=
  ⟨by decide, by decide, fun s => ⟨by simp [genLCG64], by simp only [genLCG64]; omega⟩⟩

/-- An engine that returns its state and can be in any state from 0 to `m`. -/
def genAll (m : Nat) : Gen (Fin (m + 1)) := ⟨fun s => (s.val, s), 0, m⟩

theorem genAll_sound {m : Nat} (h0 : 0 < m) (h : m < 2 ^ 64) : (genAll m).Sound :=
  ⟨h0, by simpa [genAll] using h, fun s => ⟨Nat.zero_le _, Nat.lt_succ_iff.1 s.isLt⟩⟩

theorem float32_nearest : Nearest float32 := rne_nearest (by norm_num)
theorem float64_nearest : Nearest float64 := rne_nearest (by norm_num)
theorem float80_nearest : Nearest float80 := rne_nearest (by norm_num)

/-! ### C47 -/

/-- `uniformcc` is in `[0, 1]`. -/
theorem C47_uniformcc {F : Fmt} (hF : Nearest F) (hp : 1 ≤ F.p) {G : Gen σ} (hG : G.Sound) (s : σ) :
    0 ≤ (uniformcc F G s).1 ∧ (uniformcc F G s).1 ≤ 1 := by
  set T : Traits := ⟨F, 1, G.max - G.min⟩ with hT
  have hF' : Nearest T.F := hF
  have h0 : 0 < T.max0 := by have := hG.lt; simp only [hT]; omega
  obtain ⟨v0, v1⟩ := variateLoop_range (T := T) hF hp hG rfl s (T.callsNeeded - 1)
  have hV := variateMaxLoop_ge (T := T) hF hp h0 (T.callsNeeded - 1)
  have h1 : Rep F.p 1 := rep_one (T := T) hp
  show 0 ≤ (T.cc G s).1 ∧ (T.cc G s).1 ≤ 1
  simp only [Traits.cc]
  split_ifs with hd
  · have e : T.variateMax = T.variateMaxLoop (T.callsNeeded - 1) := rfl
    constructor
    · exact hF.nonneg (div_nonneg v0 (by rw [e]; linarith))
    · exact hF.le_of_le h1 (by rw [div_le_one (by rw [e]; linarith)]; exact v1)
  · push Not at hd
    have hc := ccNorm_nonneg (T := T) hF hp h0
    constructor
    · exact hF.nonneg (mul_nonneg v0 hc)
    · rw [← hd]; exact hF.mono (mul_le_mul_of_nonneg_right v1 hc)

/-- Both ends are reached: the smallest engine result gives 0, the largest gives 1. -/
theorem C47_uniformcc_ends {F : Fmt} (hF : Nearest F) (hp : 1 ≤ F.p) {G : Gen σ} (hG : G.Sound) (s : σ) :
    ((G.call s).1 = G.min → (uniformcc F G s).1 = 0) ∧ ((G.call s).1 = G.max → (uniformcc F G s).1 = 1) := by
  set T : Traits := ⟨F, 1, G.max - G.min⟩ with hT
  have hF' : Nearest T.F := hF
  have h : T.max0 < 2 ^ 64 := hG.small
  have h0 : 0 < T.max0 := by have := hG.lt; simp only [hT]; omega
  have hc1 := T.callsNeeded_one h h0 hp rfl
  have hV := variateMaxLoop_ge (T := T) hF hp h0 0
  have hvm : T.variateMax = F.rnd T.domainMax := by rw [Traits.variateMax, hc1]; rfl
  have hv : (T.variate G s).1 = F.rnd (T.red ((G.call s).1 - G.min)) := by
    rw [Traits.variate, hc1]
    exact T.addin_eq h (by have := (hG.range s).2; simp only [hT]; omega)
  have h1 : Rep F.p 1 := rep_one (T := T) hp
  have hpos : (0 : ℚ) < F.rnd T.domainMax := lt_of_lt_of_le one_pos (rnd_domainMax_ge (T := T) hF hp h0)
  constructor
  · intro he
    have : (T.variate G s).1 = 0 := by
      rw [hv, he, Nat.sub_self]
      have : T.red 0 = 0 := by unfold Traits.red; split_ifs <;> rfl
      rw [this, Nat.cast_zero, hF.zero]
    show (T.cc G s).1 = 0
    simp only [Traits.cc]
    split_ifs
    · show F.rnd ((T.variate G s).1 / T.variateMax) = 0
      rw [this, zero_div, hF.zero]
    · show F.rnd ((T.variate G s).1 * T.ccNorm) = 0
      rw [this, zero_mul, hF.zero]
  · intro he
    have : (T.variate G s).1 = T.variateMax := by
      rw [hv, he, hvm]
      rfl
    show (T.cc G s).1 = 1
    simp only [Traits.cc]
    split_ifs with hd
    · show F.rnd ((T.variate G s).1 / T.variateMax) = 1
      rw [this, hvm, div_self hpos.ne', hF.exact h1]
    · push Not at hd
      show F.rnd ((T.variate G s).1 * T.ccNorm) = 1
      rw [this]; exact hd

/-- `uniformco` is in `[0, 1)`. -/
theorem C47_uniformco {F : Fmt} (hF : Nearest F) (hp : 2 ≤ F.p) {G : Gen σ} (hG : G.Sound) (s : σ) :
    0 ≤ (uniformco F G s).1 ∧ (uniformco F G s).1 < 1 :=
  co_range (T := ⟨F, 1, G.max - G.min⟩) hF hp hG rfl s

/-- `utility::generate_canonical` with any number of requested bits, which may call the engine several
times, is in `[0, 1)`. -/
theorem C47_canonical_bits {F : Fmt} (hF : Nearest F) (hp : 2 ≤ F.p) {G : Gen σ} (hG : G.Sound) (s : σ) (bits : Nat) :
    0 ≤ (canonicalBits F G s bits).1 ∧ (canonicalBits F G s bits).1 < 1 :=
  co_range (T := ⟨F, bits, G.max - G.min⟩) hF hp hG rfl s

/-- It does call the engine several times: 53 bits from a 32-bit engine take two calls. -/
example : Traits.callsNeeded ⟨float64, 53, 2 ^ 32 - 1⟩ = 2 ∧ Traits.callsNeeded ⟨float64, 53, 2 ^ 31 - 2⟩ = 2 ∧
    Traits.callsNeeded ⟨float80, 64, 2 ^ 31 - 2⟩ = 3 := by decide

/-- `uniformoc` is in `(0, 1]`. -/
theorem C47_uniformoc {F : Fmt} (hF : Nearest F) (hp : 2 ≤ F.p) {G : Gen σ} (hG : G.Sound) (s : σ) :
    0 < (uniformoc F G s).1 ∧ (uniformoc F G s).1 ≤ 1 := by
  obtain ⟨h0, h1⟩ := C47_uniformco hF hp hG s
  have hrep : Rep F.p (uniformco F G s).1 := hF.rep _
  have h2 := le_of_lt_one hrep h1
  show 0 < F.rnd (1 - (uniformco F G s).1) ∧ F.rnd (1 - (uniformco F G s).1) ≤ 1
  constructor
  · have hu : Rep F.p (ulp F) := Rep.two_zpow (by omega) _
    exact lt_of_lt_of_le ulp_pos (hF.ge_of_ge hu (by linarith))
  · exact hF.le_of_le (rep_one (T := ⟨F, 1, 1⟩) (show 1 ≤ F.p by omega)) (by linarith)

/-- `uniformoo` and `generate_canonical` are in `(0, 1)`, for engines with at least three different results
and a range `max - min` that is at most `2^(p-2)` or has its three leading bits set, as all engines of the
library do (`C47_uniformoo_library`). Missing: other ranges (see `C47_uniformoo_wrong`). -/
theorem C47_uniformoo_partial {F : Fmt} (hF : Nearest F) (hp : 5 ≤ F.p) {G : Gen σ} (hG : G.Sound)
    (h2 : 2 ≤ G.max - G.min)
    (hR : G.max - G.min ≤ 2 ^ (F.p - 2) ∨ ∃ B, G.max - G.min < 2 ^ B ∧ 7 * 2 ^ B ≤ 8 * (G.max - G.min)) (s : σ) :
    0 < (uniformoo F G s).1 ∧ (uniformoo F G s).1 < 1 := by
  set T : Traits := ⟨F, 1, G.max - G.min⟩ with hT
  have hTF : T.F = F := rfl
  have hp1 : 1 ≤ F.p := by omega
  have h : T.max0 < 2 ^ 64 := hG.small
  have h0 : 0 < T.max0 := by have := hG.lt; simp only [hT]; omega
  have hc1 := T.callsNeeded_one h h0 hp1 rfl
  have hvm : T.variateMax = F.rnd T.domainMax := by rw [Traits.variateMax, hc1]; rfl
  have hve : T.ccNorm = F.rnd (1 / F.rnd T.domainMax) := by rw [Traits.ccNorm, hvm]
  obtain ⟨v0, v1⟩ := variateLoop_range (T := T) hF hp1 hG rfl s (T.callsNeeded - 1)
  have hu := ulp_pos (F := F)
  have hu5 : ulp F ≤ 1 / 32 := by have := ulp_le (F := F) hp; norm_num at this; linarith
  have he2 : T.eps ≤ 1 / 2 := eps_le_half (T := T) hF (by simp only [hTF]; omega) h2
  have heg : 2 * ulp F ≤ T.eps := eps_ge (T := T)
  have hrep : Rep F.p T.eps := eps_rep (T := T) hF hp1
  have hr2 : F.rnd (2 * T.eps) = 2 * T.eps := hF.exact (by
    have := hrep.scale 1
    rwa [zpow_one, mul_comm] at this)
  have hoo0 : 0 ≤ T.ooNorm := by
    apply hF.nonneg
    apply mul_nonneg (ccNorm_nonneg (T := T) hF hp1 h0)
    apply hF.nonneg
    rw [hTF, hr2]; linarith
  show 0 < F.rnd (F.rnd ((T.variate G s).1 * T.ooNorm) + T.eps) ∧ F.rnd (F.rnd ((T.variate G s).1 * T.ooNorm) + T.eps) < 1
  refine ⟨lt_of_lt_of_le (by linarith : 0 < T.eps) (hF.ge_of_ge hrep ?_), ?_⟩
  · have := hF.nonneg (mul_nonneg v0 hoo0)
    exact le_add_of_nonneg_left this
  have hy : (T.variate G s).1 * T.ooNorm ≤ F.rnd T.domainMax * F.rnd (F.rnd (1 / F.rnd T.domainMax) * F.rnd (1 - 2 * T.eps)) := by
    have a : T.ooNorm = F.rnd (F.rnd (1 / F.rnd T.domainMax) * F.rnd (1 - 2 * T.eps)) := by
      rw [Traits.ooNorm, hve, hTF, hr2]
    rw [← a, ← hvm]
    exact mul_le_mul_of_nonneg_right v1 hoo0
  -- the two cases in terms of the range in use
  have hcase : T.domainMax ≤ 2 ^ (F.p - 2) ∨ (2 ^ (F.p - 2) < T.domainMax ∧ ∃ B, T.domainMax < 2 ^ B ∧ 7 * 2 ^ B ≤ 8 * T.domainMax) := by
    by_cases hsm : T.domainMax ≤ 2 ^ (F.p - 2)
    · exact Or.inl hsm
    refine Or.inr ⟨by omega, ?_⟩
    unfold Traits.domainMax at hsm ⊢
    split_ifs at hsm ⊢ with hll
    · simp only [Traits.useLLOfShifted, Bool.and_eq_true, beq_iff_eq] at hll
      rw [hll.1.2]
      exact ⟨63, by norm_num, by norm_num⟩
    · rcases hR with hR | hR
      · exact absurd hR hsm
      · exact hR
  rcases hcase with hsm | ⟨hbig, B, hB1, hB2⟩
  · -- small range: exact
    have hMrep : Rep F.p (T.domainMax : ℚ) := by
      refine ⟨T.domainMax, 0, ?_, by simp⟩
      rw [abs_of_nonneg (by positivity)]
      have : T.domainMax < 2 ^ F.p := lt_of_le_of_lt hsm (Nat.pow_lt_pow_right (by omega) (by omega))
      exact_mod_cast this
    have hME : F.rnd (T.domainMax : ℚ) = T.domainMax := hF.exact hMrep
    rw [hME] at hy
    have hm2 : (2 : ℚ) ≤ T.domainMax := by exact_mod_cast T.domainMax_two h2
    have hmp : (T.domainMax : ℚ) ≤ 2 ^ (F.p - 2 : ℤ) := by
      have : ((T.domainMax : ℚ)) ≤ ((2 ^ (F.p - 2) : Nat) : ℚ) := by exact_mod_cast hsm
      refine this.trans (le_of_eq ?_)
      rw [Nat.cast_pow, ← zpow_natCast]
      push_cast [show 2 ≤ F.p by omega]
      rfl
    have hx : 4 * ulp F ≤ 1 / (T.domainMax : ℚ) := by
      rw [le_div_iff₀ (by linarith)]
      have : (2 : ℚ) ^ (F.p - 2 : ℤ) * ulp F = 1 / 4 := by
        rw [ulp, ← zpow_split, show ((F.p : ℤ) - 2 + -F.p) = -2 by ring]; norm_num
      nlinarith
    have hdom : 4 * ulp F ≤ F.rnd (1 / (T.domainMax : ℚ)) := by
      have h4 : Rep F.p (4 * ulp F) := by
        have := (Rep.two_zpow (p := F.p) hp1 (-(F.p : ℤ))).scale 2
        have e : (2 : ℚ) ^ (-(F.p : ℤ)) * 2 ^ (2 : ℤ) = 4 * ulp F := by rw [ulp]; norm_num; ring
        rwa [e] at this
      exact hF.ge_of_ge h4 hx
    have heps : T.eps = F.rnd (1 / (T.domainMax : ℚ)) := by
      have h3 : ¬ (T.nativeEps ≥ F.rnd (1 / (T.domainMax : ℚ)) ∨ (1 : Nat) ≠ 1) := by
        rw [nativeEps_eq, hTF]; push Not; exact ⟨by linarith, rfl⟩
      simp only [Traits.eps, hTF, hME]
      exact if_neg h3
    exact oo_small hF hp hm2 hmp heps hy
  · -- large range with the leading bits set
    have hBp : F.p - 1 ≤ B := by
      by_contra hc
      have : 2 ^ B ≤ 2 ^ (F.p - 2) := Nat.pow_le_pow_right (by omega) (by omega)
      omega
    have hrep7 : Rep F.p (7 / 4 * 2 ^ ((B : ℤ) - 1)) := by
      refine ⟨7, (B : ℤ) - 3, ?_, ?_⟩
      · have : (2 : ℤ) ^ 5 ≤ 2 ^ F.p := by exact_mod_cast Nat.pow_le_pow_right (by omega) hp
        norm_num at this ⊢; omega
      · rw [show (B : ℤ) - 1 = (B - 3 : ℤ) + 2 by ring, zpow_split]; norm_num; ring
    have eB : ((2 ^ B : Nat) : ℚ) = 2 * 2 ^ ((B : ℤ) - 1) := by
      have e := zpow_split ((B : ℤ) - 1) 1
      rw [sub_add_cancel] at e
      rw [Nat.cast_pow, ← zpow_natCast, Nat.cast_ofNat, e, zpow_one, mul_comm]
    have hV1 : 7 / 4 * 2 ^ ((B : ℤ) - 1) ≤ F.rnd T.domainMax := by
      apply hF.ge_of_ge hrep7
      have : ((7 * 2 ^ B : Nat) : ℚ) ≤ ((8 * T.domainMax : Nat) : ℚ) := by exact_mod_cast hB2
      rw [Nat.cast_mul, Nat.cast_mul, eB] at this
      push_cast at this
      linarith
    have hV2 : F.rnd T.domainMax ≤ 2 ^ ((B : ℤ) - 1 + 1) := by
      apply hF.le_of_le (Rep.two_zpow hp1 _)
      have : ((T.domainMax : Nat) : ℚ) ≤ ((2 ^ B : Nat) : ℚ) := by exact_mod_cast hB1.le
      refine this.trans (le_of_eq ?_)
      rw [Nat.cast_pow, ← zpow_natCast]; norm_num
    have ht : F.rnd (1 - 2 * T.eps) ≤ 1 - 4 * ulp F := by
      have := rep_one_sub' (F := F) hp1 4 (by norm_num) (by push_cast; linarith)
      push_cast at this
      exact hF.le_of_le this (by linarith)
    have hel : T.eps ≤ 12 / 5 * ulp F := by
      have hpow := two_zpow_pos ((B : ℤ) - 1)
      have hq : 1 / F.rnd T.domainMax ≤ 16 / 7 * ulp F := by
        rw [div_le_iff₀ (by linarith)]
        have a : (1 : ℚ) ≤ 4 * (2 ^ ((B : ℤ) - 1) * ulp F) := by
          rw [ulp, ← zpow_split]
          have b : (2 : ℚ) ^ (-2 : ℤ) ≤ 2 ^ ((B : ℤ) - 1 + -F.p) := zpow_le_zpow_right₀ (by norm_num) (by omega)
          norm_num at b ⊢; linarith
        have b := mul_le_mul_of_nonneg_left hV1 (by linarith : (0 : ℚ) ≤ 16 / 7 * ulp F)
        linarith
      have hq2 : F.rnd (1 / F.rnd T.domainMax) ≤ 12 / 5 * ulp F := by
        have := (rnd_bounds hF hp1 (x := 1 / F.rnd T.domainMax) (one_div_nonneg.2 (by linarith))).2
        nlinarith
      simp only [Traits.eps]
      split_ifs
      · rw [nativeEps_eq, hTF]; linarith
      · exact hq2
    exact oo_core hF hp hV1 hV2 ht hel hy

/-- The ranges `[min(), max()]` of the library's engines: the 64-bit engines (lcg64.hpp:59-60 etc.), the
32-bit ones (mt19937.hpp:67-68 etc.), minstd (minstd.hpp:55-56) and the mrg and yarn engines (mrg2.hpp:60-61 etc.)
with their three moduli. -/
def libraryRanges : List (Nat × Nat) :=
  [(0, 2 ^ 64 - 1), (0, 2 ^ 32 - 1), (1, 2 ^ 31 - 2), (0, 2147483647 - 1), (0, 2147462579 - 1), (0, 2147461007 - 1)]

/-- For the engines of the library `uniformoo` is in `(0, 1)`. -/
theorem C47_uniformoo_library {F : Fmt} (hF : Nearest F) (hp : 5 ≤ F.p) {G : Gen σ} (hG : G.Sound)
    (hl : (G.min, G.max) ∈ libraryRanges) (s : σ) : 0 < (uniformoo F G s).1 ∧ (uniformoo F G s).1 < 1 := by
  have key : ∀ q ∈ libraryRanges, 2 ≤ q.2 - q.1 ∧ (q.2 - q.1 < 2 ^ 31 ∧ 7 * 2 ^ 31 ≤ 8 * (q.2 - q.1) ∨
      q.2 - q.1 < 2 ^ 32 ∧ 7 * 2 ^ 32 ≤ 8 * (q.2 - q.1) ∨ q.2 - q.1 < 2 ^ 64 ∧ 7 * 2 ^ 64 ≤ 8 * (q.2 - q.1)) := by decide
  obtain ⟨h2, h3⟩ := key _ hl
  refine C47_uniformoo_partial hF hp hG h2 (Or.inr ?_) s
  rcases h3 with h | h | h
  · exact ⟨31, h⟩
  · exact ⟨32, h⟩
  · exact ⟨64, h⟩

/-- The moduli are those of the mrg and yarn engines. -/
example (k : Kind) : (0, k.modulus - 1) ∈ libraryRanges := by cases k <;> decide

example (s : LCG64) : 0 < (uniformoo float64 genLCG64 s).1 ∧ (uniformoo float64 genLCG64 s).1 < 1 :=
  C47_uniformoo_library float64_nearest (by decide) genLCG64_sound (by decide) s

/-- The claim is false in general: with an engine whose results range over 0..1725198086 (or, for `double`,
0..469242896658081460) `uniformoo` returns exactly 1; a one-bit engine makes it return 1 and 0. -/
theorem C47_uniformoo_wrong :
    (uniformoo float32 (genAll 1725198086) (Fin.last _)).1 = 1 ∧
    (uniformoo float64 (genAll 469242896658081460) (Fin.last _)).1 = 1 ∧
    (uniformoo float64 (genAll 1) 0).1 = 1 ∧ (uniformoo float64 (genAll 1) 1).1 = 0 :=
  ⟨by decide +kernel, by decide +kernel, by decide +kernel, by decide +kernel⟩

example : (uniformcc float64 genLCG64 (LCG64.seed0 ⟨⟨1, 1⟩, 0⟩)).1 ≤ 1 := (C47_uniformcc float64_nearest (by decide) genLCG64_sound _).2

/-! ### C48 -/

/-- `r(x)` with `x > 0` of type `long` returns a value in `[0, x)`; no conversion overflows. -/
theorem C48_bounded_int {D : Fmt} (hD : Nearest D) (hp : 2 ≤ D.p) {G : Gen σ} (hG : G.Sound) (s : σ) (x : ℤ)
    (h1 : 1 ≤ x) (h2 : x ≤ 2 ^ 63 - 1) : ∃ k, (boundedInt D G s x).1 = some k ∧ 0 ≤ k ∧ k < x := by
  obtain ⟨h0, hlt⟩ := C47_uniformco hD hp hG s
  exact toInteger_scaled hD hp (hD.rep _) h0 hlt (by omega) (by norm_num) (by omega)

/-- One call of the engine is used. -/
theorem C48_bounded_int_calls {D : Fmt} (hp : 1 ≤ D.p) {G : Gen σ} (hG : G.Sound) (s : σ) (x : ℤ) :
    (boundedInt D G s x).2 = (G.call s).2 := by
  have hc1 := Traits.callsNeeded_one ⟨D, 1, G.max - G.min⟩ hG.small (by have := hG.lt; show 0 < G.max - G.min; omega) hp rfl
  show (Traits.variateLoop ⟨D, 1, G.max - G.min⟩ G s (Traits.callsNeeded ⟨D, 1, G.max - G.min⟩ - 1)).2 = _
  rw [hc1]; rfl

example : (boundedInt float64 (genAll (2 ^ 64 - 1)) (Fin.last _) (2 ^ 63 - 1)).1 = some (2 ^ 63 - 2048) ∧
    (boundedInt float64 (genAll (2 ^ 64 - 1)) (Fin.last _) 6).1 = some 5 := ⟨by decide +kernel, by decide +kernel⟩

/-! ### C70 -/

/-- `uniformco` is a non-decreasing function of the engine's result. -/
theorem C70_uniformco_monotone {F : Fmt} (hF : Nearest F) (hp : 1 ≤ F.p) {G : Gen σ} (hG : G.Sound) (s t : σ)
    (h : (G.call s).1 ≤ (G.call t).1) : (uniformco F G s).1 ≤ (uniformco F G t).1 := by
  set T : Traits := ⟨F, 1, G.max - G.min⟩ with hT
  have hs : T.max0 < 2 ^ 64 := hG.small
  have h0 : 0 < T.max0 := by have := hG.lt; simp only [hT]; omega
  have hc1 := T.callsNeeded_one hs h0 hp rfl
  have hv : ∀ s, (T.variate G s).1 = F.rnd (T.red ((G.call s).1 - G.min)) := by
    intro s
    rw [Traits.variate, hc1]
    exact T.addin_eq hs (by have := (hG.range s).2; simp only [hT]; omega)
  have hle : T.red ((G.call s).1 - G.min) ≤ T.red ((G.call t).1 - G.min) := by
    unfold Traits.red
    split_ifs
    · rw [Nat.shiftRight_eq_div_pow, Nat.shiftRight_eq_div_pow]; exact Nat.div_le_div_right (by omega)
    · omega
  show F.rnd ((T.variate G s).1 * T.coNorm) ≤ F.rnd ((T.variate G t).1 * T.coNorm)
  apply hF.mono
  apply mul_le_mul_of_nonneg_right _ (coNorm_nonneg (T := T) hF hp h0)
  rw [hv, hv]
  exact hF.mono (by exact_mod_cast hle)

theorem uniformco_shift {x m : Nat} (hm : m >>> 1 = 2 ^ 63 - 1) (hm2 : m < 2 ^ 64) (hx : x ≤ m) :
    |((x >>> 1 : Nat) : ℚ) / ((m >>> 1 : Nat) : ℚ) - x / m| ≤ 3 / m := by
  rw [hm]
  rw [Nat.shiftRight_eq_div_pow] at hm ⊢
  have hm3 : m = 2 ^ 64 - 2 ∨ m = 2 ^ 64 - 1 := by omega
  have h1 : (2 : ℚ) * ((x / 2 ^ 1 : Nat) : ℚ) ≤ x := by
    have : 2 * (x / 2 ^ 1) ≤ x := by omega
    exact_mod_cast this
  have h2 : (x : ℚ) ≤ 2 * ((x / 2 ^ 1 : Nat) : ℚ) + 1 := by
    have : x ≤ 2 * (x / 2 ^ 1) + 1 := by omega
    exact_mod_cast this
  have h3 : (x : ℚ) ≤ m := by exact_mod_cast hx
  have h4 : (0 : ℚ) ≤ ((x / 2 ^ 1 : Nat) : ℚ) := by positivity
  generalize ((x / 2 ^ 1 : Nat) : ℚ) = r at *
  have hm0 : (0 : ℚ) < m := by rcases hm3 with rfl | rfl <;> norm_num
  have e : r / ((2 ^ 63 - 1 : Nat) : ℚ) - x / m = (r * m - x * (2 ^ 63 - 1)) / ((2 ^ 63 - 1) * m) := by
    have hh : ((2 ^ 63 - 1 : Nat) : ℚ) = 2 ^ 63 - 1 := by norm_num
    have h63 : (2 ^ 63 - 1 : ℚ) ≠ 0 := by norm_num
    rw [hh]
    generalize (2 ^ 63 - 1 : ℚ) = N at h63
    field_simp
  rw [e, abs_div, abs_of_pos (by positivity : (0 : ℚ) < (2 ^ 63 - 1) * m), div_le_div_iff₀ (by positivity) hm0]
  have key : |r * m - x * (2 ^ 63 - 1)| ≤ 3 * (2 ^ 63 - 1) := by
    rw [abs_le]
    rcases hm3 with rfl | rfl <;> push_cast at * <;> constructor <;> linarith
  nlinarith

/-- `uniformco` is, up to `8/(max-min) + 16·2^-p`, the relative position of the engine's result in its range. -/
theorem C70_uniformco_accuracy {F : Fmt} (hF : Nearest F) (hp : 5 ≤ F.p) {G : Gen σ} (hG : G.Sound) (s : σ) :
    |(uniformco F G s).1 - ((G.call s).1 - G.min : ℚ) / (G.max - G.min)| ≤ 8 / (G.max - G.min) + 16 * 2 ^ (-(F.p : ℤ)) := by
  set T : Traits := ⟨F, 1, G.max - G.min⟩ with hT
  have hTF : T.F = F := rfl
  have hp1 : 1 ≤ F.p := by omega
  have hs : T.max0 < 2 ^ 64 := hG.small
  have h0 : 0 < T.max0 := by have := hG.lt; simp only [hT]; omega
  have hc1 := T.callsNeeded_one hs h0 hp1 rfl
  have hvm : T.variateMax = F.rnd T.domainMax := by rw [Traits.variateMax, hc1]; rfl
  set x := (G.call s).1 - G.min with hx
  have hxle : x ≤ T.max0 := by have := (hG.range s).2; simp only [hT, hx]; omega
  have hv : (T.variate G s).1 = F.rnd (T.red x) := by
    rw [Traits.variate, hc1]; exact T.addin_eq hs hxle
  have e1 : ((G.call s).1 - G.min : ℚ) = x := by rw [hx, Nat.cast_sub (hG.range s).1]
  have e2 : (G.max - G.min : ℚ) = T.max0 := by simp only [hT]; rw [Nat.cast_sub hG.lt.le]
  rw [e1, e2]
  have hu := ulp_pos (F := F)
  have hu5 : ulp F ≤ 1 / 32 := by have := ulp_le (F := F) hp; norm_num at this; linarith
  have hM1 : (1 : ℚ) ≤ T.domainMax := by exact_mod_cast T.domainMax_pos h0
  have hq := quot_bounds hF hp (r := T.red x) (M := T.domainMax) (e := T.eps) (by positivity)
    (by exact_mod_cast T.red_le hxle) hM1 (by linarith [eps_ge (T := T)]) (eps_le_one (T := T) hF hp1 h0)
  have hco : (uniformco F G s).1 = F.rnd (F.rnd (T.red x) * F.rnd (F.rnd (1 / F.rnd T.domainMax) * F.rnd (1 - T.eps))) := by
    show F.rnd ((T.variate G s).1 * T.coNorm) = _
    rw [hv, Traits.coNorm, Traits.ccNorm, hvm]
  rw [← hco] at hq
  have heps : T.eps ≤ 1 / T.domainMax + 5 * ulp F := by
    have hr := (recip_bounds hF hp hM1).2
    have hr2 : F.rnd (1 / F.rnd T.domainMax) ≤ (1 + 3 * ulp F) / T.domainMax := by
      rw [le_div_iff₀ (by linarith)]; linarith
    have hr3 : (1 + 3 * ulp F) / (T.domainMax : ℚ) ≤ 1 / T.domainMax + 3 * ulp F := by
      rw [add_div]
      have : 3 * ulp F / (T.domainMax : ℚ) ≤ 3 * ulp F := div_le_self (by linarith) hM1
      linarith
    simp only [Traits.eps]
    split_ifs
    · rw [nativeEps_eq, hTF]
      have : (0 : ℚ) ≤ 1 / T.domainMax := by positivity
      linarith
    · exact hr2.trans (by linarith)
  have hm0 : (0 : ℚ) < T.max0 := by exact_mod_cast h0
  have hshift : |(T.red x : ℚ) / T.domainMax - x / T.max0| ≤ 3 / T.max0 ∧ 1 / (T.domainMax : ℚ) ≤ 3 / T.max0 := by
    unfold Traits.red Traits.domainMax
    split_ifs with hl
    · simp only [Traits.useLLOfShifted, Bool.and_eq_true, beq_iff_eq] at hl
      refine ⟨uniformco_shift hl.1.2 hs hxle, ?_⟩
      have h2 : T.max0 ≤ 3 * (T.max0 >>> 1) := by rw [hl.1.2]; omega
      rw [div_le_div_iff₀ (by rw [hl.1.2]; norm_num) hm0]
      have : ((T.max0 : Nat) : ℚ) ≤ ((3 * (T.max0 >>> 1) : Nat) : ℚ) := by exact_mod_cast h2
      push_cast at this ⊢; linarith
    · refine ⟨by rw [sub_self, abs_zero]; positivity, ?_⟩
      exact div_le_div_of_nonneg_right (by norm_num) hm0.le
  have htri := abs_sub_le (uniformco F G s).1 ((T.red x : ℚ) / T.domainMax) (x / T.max0)
  have h8 : (8 : ℚ) / T.max0 = 3 / T.max0 + 3 / T.max0 + 2 / T.max0 := by ring
  have h9 : (0 : ℚ) ≤ 2 / T.max0 := by positivity
  change _ ≤ 8 / (T.max0 : ℚ) + 16 * ulp F
  linarith [hshift.1, hshift.2]

example (s : LCG64) : |(uniformco float64 genLCG64 s).1 - ((genLCG64.call s).1 - (0 : Nat) : ℚ) / ((2 ^ 64 - 1 : Nat) - (0 : Nat))| ≤
    8 / ((2 ^ 64 - 1 : Nat) - (0 : Nat)) + 16 * 2 ^ (-(53 : ℤ)) :=
  C70_uniformco_accuracy float64_nearest (by decide) genLCG64_sound s

/-! ### C49 -/

/-- `uniform_int_dist(a, b)` with `a < b` returns an integer in `[a, b)`; constructing it does not overflow if
`b - a` is an `int`. -/
theorem C49_uniform_int_range {D : Fmt} (hD : Nearest D) (hp : 2 ≤ D.p) {G : Gen σ} (hG : G.Sound) (s : σ) {a b : ℤ}
    (ha : -2 ^ 31 ≤ a) (hb : b ≤ 2 ^ 31 - 1) (hab : a < b) (hd : b - a ≤ 2 ^ 31 - 1) :
    ∃ P, IntParam.mk' a b = some P ∧ ∃ k, (P.sample D G s).1 = some k ∧ a ≤ k ∧ k < b := by
  refine ⟨⟨a, b, b - a⟩, ?_, ?_⟩
  · rw [IntParam.mk', int32, if_pos ⟨by omega, by omega⟩]; rfl
  · obtain ⟨h0, hlt⟩ := C47_uniformco hD hp hG s
    obtain ⟨k, hk, hk0, hk1⟩ := toInteger_scaled hD hp (hD.rep _) h0 hlt (x := b - a) (lo := -2 ^ 31) (hi := 2 ^ 31 - 1)
      (by omega) (by norm_num) (by omega)
    refine ⟨k + a, ?_, by omega, by omega⟩
    have e : (IntParam.sample ⟨a, b, b - a⟩ D G s).1 =
        (toInteger (-2 ^ 31) (2 ^ 31 - 1) (D.rnd (D.rnd ((b - a : ℤ) : ℚ) * (uniformco D G s).1))).bind fun k => int32 (k + a) := rfl
    have hk' : toInteger (-2 ^ 31) (2 ^ 31 - 1) (D.rnd (D.rnd ((b - a : ℤ) : ℚ) * (uniformco D G s).1)) = some k := by
      rw [mul_comm]; exact hk
    rw [e, hk', Option.bind_some, int32, if_pos ⟨by omega, by omega⟩]

/-- The limits: `min()` is `a`, `max()` is `b - 1`. -/
theorem C49_uniform_int_limits {a b : ℤ} (ha : -2 ^ 31 ≤ a) (hb : b ≤ 2 ^ 31 - 1) (hab : a < b) {P : IntParam}
    (hP : IntParam.mk' a b = some P) : P.minValue = a ∧ P.maxValue = some (b - 1) := by
  have : P.a = a ∧ P.b = b := by
    rw [IntParam.mk', Option.map_eq_some_iff] at hP
    obtain ⟨d, -, rfl⟩ := hP
    exact ⟨rfl, rfl⟩
  rw [IntParam.minValue, IntParam.maxValue, this.1, this.2, int32, if_pos ⟨by omega, by omega⟩]
  exact ⟨rfl, rfl⟩

/-- `b - a > INT_MAX`: the constructor overflows (undefined behaviour). -/
theorem C49_uniform_int_overflow {a b : ℤ} (h : 2 ^ 31 - 1 < b - a) : IntParam.mk' a b = none := by
  rw [IntParam.mk', int32, if_neg (by omega)]; rfl

example : IntParam.mk' (-2 ^ 31) (2 ^ 31 - 1) = none ∧ IntParam.mk' (-1) (2 ^ 31 - 1) = none := ⟨by decide, by decide⟩

/-- Changing the limits one after the other gives the same distribution as constructing it. -/
theorem C49_uniform_int_setters {a b a' b' : ℤ} {P Q R : IntParam} (hP : IntParam.mk' a b = some P) (hQ : P.setA a' = some Q)
    (hR : Q.setB b' = some R) : IntParam.mk' a' b' = some R := by
  rw [IntParam.mk', Option.map_eq_some_iff] at hP
  obtain ⟨d, -, rfl⟩ := hP
  rw [IntParam.setA, Option.map_eq_some_iff] at hQ
  obtain ⟨d', -, rfl⟩ := hQ
  exact hR

/-- Every integer in `[a, b)` is returned, if the engine returns every number of its range and the range is
at least 32 times as large as `b - a`. -/
theorem C49_uniform_int_all {D : Fmt} (hD : Nearest D) (hp : 40 ≤ D.p) {G : Gen σ} (hG : G.Sound)
    (hall : ∀ x, G.min ≤ x → x ≤ G.max → ∃ s, (G.call s).1 = x) {a b : ℤ} {P : IntParam} (ha : -2 ^ 31 ≤ a) (hb : b ≤ 2 ^ 31 - 1)
    (hP : IntParam.mk' a b = some P) (hlarge : 32 * (b - a) ≤ (G.max - G.min : Nat)) (k : ℤ) (hka : a ≤ k) (hkb : k < b) :
    ∃ s, (P.sample D G s).1 = some k := by
  have hd : b - a ≤ 2 ^ 31 - 1 := by
    by_contra hc
    rw [C49_uniform_int_overflow (by omega)] at hP
    exact absurd hP (by simp)
  have hPe : P = ⟨a, b, b - a⟩ := by
    rw [IntParam.mk', int32, if_pos ⟨by omega, by omega⟩] at hP
    exact (Option.some.inj hP).symm
  subst hPe
  set M := G.max - G.min with hM
  set d := b - a with hdd
  have hd0 : 0 < d := by omega
  have hdq : (0 : ℚ) < d := by exact_mod_cast hd0
  have hM0 : (0 : ℚ) < M := by
    have : 0 < M := by have := hG.lt; omega
    exact_mod_cast this
  set y : ℚ := ((k - a : ℤ) + 1 / 2) / d with hy
  have hy0 : 0 ≤ y := by
    have : (0 : ℚ) ≤ (k - a : ℤ) := by exact_mod_cast (by omega : (0 : ℤ) ≤ k - a)
    positivity
  have hyd : y * d = (k - a : ℤ) + 1 / 2 := by rw [hy]; field_simp
  have hk1 : ((k - a : ℤ) : ℚ) ≤ d - 1 := by
    have : k - a ≤ d - 1 := by omega
    exact_mod_cast this
  have hy1 : y ≤ 1 := by
    rw [hy, div_le_one hdq]; linarith
  -- choose the engine result
  set x := ⌊y * M⌋.toNat with hx
  have hfl : (x : ℤ) = ⌊y * M⌋ := Int.toNat_of_nonneg (Int.floor_nonneg.2 (by positivity))
  have hx1 : (x : ℚ) ≤ y * M := by
    have := Int.floor_le (y * M)
    rw [← hfl] at this
    exact_mod_cast this
  have hx2 : y * M < x + 1 := by
    have := Int.lt_floor_add_one (y * M)
    rw [← hfl] at this
    exact_mod_cast this
  have hxM : x ≤ M := by
    have : (x : ℚ) ≤ M := by nlinarith
    exact_mod_cast this
  obtain ⟨s, hs⟩ := hall (x + G.min) (by omega) (by have := hG.lt; omega)
  refine ⟨s, ?_⟩
  have hacc := C70_uniformco_accuracy hD (by omega) hG s
  have e1 : ((G.call s).1 - G.min : ℚ) = x := by rw [hs]; push_cast; ring
  have e2 : (G.max - G.min : ℚ) = M := by rw [hM, Nat.cast_sub hG.lt.le]
  rw [e1, e2] at hacc
  change _ ≤ 8 / (M : ℚ) + 16 * ulp D at hacc
  have hu := ulp_pos (F := D)
  have hu40 : ulp D ≤ 1 / 2 ^ 40 := by have := ulp_le (F := D) hp; norm_num at this ⊢; linarith
  obtain ⟨h0, hlt⟩ := C47_uniformco hD (by omega) hG s
  set c := (uniformco D G s).1 with hc
  have hclose : |c - y| ≤ 9 / (M : ℚ) + 16 * ulp D := by
    have h1 : |(x : ℚ) / M - y| ≤ 1 / M := by
      have e : (x : ℚ) / M - y = (x - y * M) / M := by field_simp
      rw [e, abs_div, abs_of_pos hM0]
      apply div_le_div_of_nonneg_right _ hM0.le
      rw [abs_le]; constructor <;> linarith
    have h2 := abs_sub_le c ((x : ℚ) / M) y
    have h3 : (9 : ℚ) / M = 8 / M + 1 / M := by ring
    linarith
  have hdM : (d : ℚ) * (9 / M) ≤ 9 / 32 := by
    rw [mul_div_assoc', div_le_div_iff₀ hM0 (by norm_num)]
    have : (32 * d : ℚ) ≤ M := by exact_mod_cast hlarge
    linarith
  have hd31 : (d : ℚ) ≤ 2 ^ 31 := by
    have : d ≤ 2 ^ 31 := by omega
    exact_mod_cast this
  have hdu : (d : ℚ) * ulp D ≤ 1 / 2 ^ 9 := by
    calc (d : ℚ) * ulp D ≤ 2 ^ 31 * (1 / 2 ^ 40) := mul_le_mul hd31 hu40 hu.le (by norm_num)
      _ = _ := by norm_num
  have hrd : D.rnd (d : ℚ) = d := by
    apply hD.exact
    refine ⟨d, 0, ?_, by simp⟩
    rw [abs_of_pos hd0]
    have : (2 : ℤ) ^ 31 ≤ 2 ^ D.p := by exact_mod_cast Nat.pow_le_pow_right (by norm_num : 0 < 2) (by omega)
    omega
  have hdc : |d * c - ((k - a : ℤ) + 1 / 2)| ≤ 9 / 32 + 16 / 2 ^ 9 := by
    have e : d * c - ((k - a : ℤ) + 1 / 2) = d * (c - y) := by rw [← hyd]; ring
    rw [e, abs_mul, abs_of_pos hdq]
    have := mul_le_mul_of_nonneg_left hclose hdq.le
    linarith
  have hdc0 : 0 ≤ d * c := mul_nonneg hdq.le h0
  have hdcd : d * c * ulp D ≤ 1 / 2 ^ 9 := by
    have : d * c ≤ d := by nlinarith
    nlinarith
  obtain ⟨r1, r2⟩ := rnd_bounds hD (by omega) hdc0
  rw [abs_le] at hdc
  norm_num at hdc hdcd
  have f1 : ((k - a : ℤ) : ℚ) ≤ D.rnd (d * c) := by push_cast at *; linarith [hdc.1]
  have f2 : D.rnd (d * c) < ((k - a : ℤ) : ℚ) + 1 := by push_cast at *; linarith [hdc.2]
  have hfloor : ⌊D.rnd (d * c)⌋ = k - a := Int.floor_eq_iff.2 ⟨f1, f2⟩
  have htoi : toInteger (-2 ^ 31) (2 ^ 31 - 1) (D.rnd (d * c)) = some (k - a) := by
    unfold toInteger
    rw [if_pos (hD.nonneg hdc0), hfloor]
    exact if_pos ⟨by omega, by omega⟩
  have e : (IntParam.sample ⟨a, b, d⟩ D G s).1 =
      (toInteger (-2 ^ 31) (2 ^ 31 - 1) (D.rnd (D.rnd (d : ℚ) * c))).bind fun k => int32 (k + a) := rfl
  rw [e, hrd, htoi, Option.bind_some, int32, if_pos ⟨by omega, by omega⟩]
  congr 1; ring

/-- A die on a 64-bit engine: all faces occur. -/
example (k : ℤ) (h1 : 1 ≤ k) (h2 : k < 7) :
    ∃ s, ((⟨1, 7, 6⟩ : IntParam).sample float64 (genAll (2 ^ 64 - 1)) s).1 = some k :=
  C49_uniform_int_all (a := 1) (b := 7) float64_nearest (by decide) (genAll_sound (by norm_num) (by norm_num))
    (fun x _ h => ⟨⟨x, by simp only [genAll] at h; omega⟩, rfl⟩) (by norm_num) (by norm_num) rfl (by simp only [genAll]; norm_num) k h1 h2

/-- `pdf` and `cdf` are the correctly rounded probabilities of the uniform law on `[a, b)`. -/
theorem C49_uniform_int_law {D : Fmt} (hD : Nearest D) (hp : 31 ≤ D.p) {a b : ℤ} (hab : a < b) {P : IntParam}
    (hP : IntParam.mk' a b = some P) (x : ℤ) :
    (a ≤ x → x < b → P.pdf D x = D.rnd (1 / (b - a : ℤ)) ∧ P.cdf D x = some (D.rnd ((x - a + 1 : ℤ) / (b - a : ℤ)))) ∧
    (x < a → P.pdf D x = 0 ∧ P.cdf D x = some 0) ∧ (b ≤ x → P.pdf D x = 0 ∧ P.cdf D x = some 1) := by
  have hd : b - a ≤ 2 ^ 31 - 1 := by
    by_contra hc
    rw [C49_uniform_int_overflow (by omega)] at hP
    exact absurd hP (by simp)
  have hPe : P = ⟨a, b, b - a⟩ := by
    rw [IntParam.mk', int32, if_pos ⟨by omega, by omega⟩] at hP
    exact (Option.some.inj hP).symm
  subst hPe
  have hex : ∀ n : ℤ, 0 ≤ n → n ≤ 2 ^ 31 - 1 → D.rnd (n : ℚ) = n := by
    intro n h0 h1
    apply hD.exact
    refine ⟨n, 0, ?_, by simp⟩
    rw [abs_of_nonneg h0]
    have : (2 : ℤ) ^ 31 ≤ 2 ^ D.p := by exact_mod_cast Nat.pow_le_pow_right (by norm_num : 0 < 2) hp
    omega
  refine ⟨fun h1 h2 => ⟨?_, ?_⟩, fun h => ⟨?_, ?_⟩, fun h => ⟨?_, ?_⟩⟩
  · rw [IntParam.pdf, if_neg (by simp only; omega)]
    simp only
    rw [hex _ (by omega) hd]
  · rw [IntParam.cdf, if_neg (by simp only; omega), if_neg (by simp only; omega)]
    simp only
    rw [int32, if_pos ⟨by omega, by omega⟩, Option.bind_some, int32, if_pos ⟨by omega, by omega⟩]
    show some (D.rnd (D.rnd ((x - a + 1 : ℤ) : ℚ) / D.rnd ((b - a : ℤ) : ℚ))) = _
    rw [hex _ (by omega) (by omega), hex _ (by omega) hd]
  · rw [IntParam.pdf, if_pos (Or.inl h)]
  · rw [IntParam.cdf, if_pos h]
  · rw [IntParam.pdf, if_pos (Or.inr h)]
  · rw [IntParam.cdf, if_neg (by simp only; omega), if_pos h]

/-! ### C50 -/

section bernoulli
variable {τ : Type}

/-- `p <= 0` never gives head, `p >= 1` never gives tail. -/
theorem C50_bernoulli_extremes {D : Fmt} (hD : Nearest D) (hp : 2 ≤ D.p) {G : Gen σ} (hG : G.Sound) (s : σ) (P : BernoulliParam τ) :
    (P.p ≤ 0 → (P.sample D G s).1 = P.tail) ∧ (1 ≤ P.p → (P.sample D G s).1 = P.head) := by
  obtain ⟨h0, h1⟩ := C47_uniformco hD hp hG s
  constructor
  · intro h; exact if_neg (by linarith)
  · intro h; exact if_pos (by linarith)

/-- The lower part of the engine's range gives head, the upper part tail; the boundary is at the fraction `p`
of the range, up to `8/(max-min) + 16·2^-p`. -/
theorem C50_bernoulli_law {D : Fmt} (hD : Nearest D) (hp : 5 ≤ D.p) {G : Gen σ} (hG : G.Sound) (s : σ) (P : BernoulliParam τ) :
    (((G.call s).1 - G.min : ℚ) / (G.max - G.min) < P.p - (8 / (G.max - G.min) + 16 * 2 ^ (-(D.p : ℤ))) →
      (P.sample D G s).1 = P.head) ∧
    (P.p + (8 / (G.max - G.min) + 16 * 2 ^ (-(D.p : ℤ))) ≤ ((G.call s).1 - G.min : ℚ) / (G.max - G.min) →
      (P.sample D G s).1 = P.tail) := by
  have := abs_le.1 (C70_uniformco_accuracy hD hp hG s)
  constructor
  · intro h; exact if_pos (by linarith [this.2])
  · intro h; exact if_neg (by linarith [this.1])

/-- Head is returned below a threshold: a smaller engine result gives head if a larger one does. -/
theorem C50_bernoulli_threshold {D : Fmt} (hD : Nearest D) (hp : 1 ≤ D.p) {G : Gen σ} (hG : G.Sound) (s t : σ) (P : BernoulliParam τ)
    (hne : P.head ≠ P.tail) (h : (G.call s).1 ≤ (G.call t).1) (ht : (P.sample D G t).1 = P.head) : (P.sample D G s).1 = P.head := by
  have hm := C70_uniformco_monotone hD hp hG s t h
  have : (uniformco D G t).1 < P.p := by
    by_contra hc
    have : (P.sample D G t).1 = P.tail := if_neg hc
    rw [this] at ht
    exact hne ht.symm
  exact if_pos (by linarith)

/-- For different head and tail: `pdf` is `p` for head, the rounded `1 - p` for tail and 0 elsewhere, and `cdf` adds
up `pdf`. -/
theorem C50_bernoulli_pdf_cdf [LinearOrder τ] (D : Fmt) (P : BernoulliParam τ) (hne : P.head ≠ P.tail) :
    P.pdf D P.head = P.p ∧ P.pdf D P.tail = D.rnd (1 - P.p) ∧ (∀ x, x ≠ P.head → x ≠ P.tail → P.pdf D x = 0) ∧
    ∀ x, P.cdf D x =
      if P.head ≤ x then if P.tail ≤ x then 1 else P.p else if P.tail ≤ x then D.rnd (1 - P.p) else 0 := by
  refine ⟨if_pos rfl, ?_, ?_, ?_⟩
  · rw [BernoulliParam.pdf, if_neg (Ne.symm hne), if_pos rfl]
  · intro x h1 h2
    rw [BernoulliParam.pdf, if_neg h1, if_neg h2]
  · intro x
    rw [BernoulliParam.cdf]
    rcases lt_or_gt_of_ne hne with h | h
    · rw [if_pos h]
      by_cases h1 : x < P.head
      · rw [if_pos h1, if_neg (not_le.2 h1), if_neg (not_le.2 (h1.trans h))]
      · rw [if_neg h1, if_pos (not_lt.1 h1)]
        by_cases h2 : x < P.tail
        · rw [if_pos h2, if_neg (not_le.2 h2)]
        · rw [if_neg h2, if_pos (not_lt.1 h2)]
    · rw [if_neg (not_lt.2 h.le)]
      by_cases h1 : x < P.tail
      · rw [if_pos h1, if_neg (not_le.2 (h1.trans h)), if_neg (not_le.2 h1)]
      · rw [if_neg h1]
        by_cases h2 : x < P.head
        · rw [if_pos h2, if_neg (not_le.2 h2), if_pos (not_lt.1 h1)]
        · rw [if_neg h2, if_pos (not_lt.1 h2), if_pos (not_lt.1 h1)]

/-- With equal head and tail (the default for class types) every sample is that value, but `pdf` gives it only `p`. -/
theorem C50_bernoulli_same_wrong :
    let P : BernoulliParam Nat := ⟨1 / 2, 7, 7⟩
    (∀ {σ : Type} (D : Fmt) (G : Gen σ) (s : σ), (P.sample D G s).1 = 7) ∧ P.pdf float64 7 = 1 / 2 := by
  refine ⟨fun D G s => ?_, by decide +kernel⟩
  simp only [BernoulliParam.sample]
  split_ifs <;> rfl

example (s : LCG64) : ((⟨1, true, false⟩ : BernoulliParam Bool).sample float64 genLCG64 s).1 = true :=
  (C50_bernoulli_extremes float64_nearest (by decide) genLCG64_sound s _).2 le_rfl

end bernoulli

/-! ### C71 -/

/-- `uniform_dist(a, b)`, `a < b` representable: samples are in `[a, b]`. (Documented is `[a, b)`.) -/
theorem C71_uniform_dist_partial {F : Fmt} (hF : Nearest F) (hp : 2 ≤ F.p) {G : Gen σ} (hG : G.Sound) (s : σ) {a b : ℚ}
    (ha : Rep F.p a) (hb : Rep F.p b) (hab : a < b) :
    a ≤ ((RealParam.mk' F a b).sample F G s).1 ∧ ((RealParam.mk' F a b).sample F G s).1 ≤ b := by
  obtain ⟨h0, h1⟩ := C47_uniformco hF hp hG s
  have hd : 0 < b - a := by linarith
  have hlt := scaled_lt hF hp (hF.rep _) h1 hd
  have hge : 0 ≤ F.rnd (F.rnd (b - a) * (uniformco F G s).1) := hF.nonneg (mul_nonneg (hF.nonneg hd.le) h0)
  change a ≤ F.rnd (F.rnd (F.rnd (b - a) * (uniformco F G s).1) + a) ∧ F.rnd (F.rnd (F.rnd (b - a) * (uniformco F G s).1) + a) ≤ b
  have hlt' : F.rnd (F.rnd (b - a) * (uniformco F G s).1) < b - a := by rw [mul_comm]; exact hlt
  exact ⟨hF.ge_of_ge ha (by linarith), hF.le_of_le hb (by linarith)⟩

/-- Samples stay below `b` if `a = 0`. -/
theorem C71_uniform_dist_zero {F : Fmt} (hF : Nearest F) (hp : 2 ≤ F.p) {G : Gen σ} (hG : G.Sound) (s : σ) {b : ℚ} (hb : 0 < b) :
    ((RealParam.mk' F 0 b).sample F G s).1 < b := by
  obtain ⟨h0, h1⟩ := C47_uniformco hF hp hG s
  have hlt := scaled_lt hF hp (hF.rep _) h1 hb
  change F.rnd (F.rnd (F.rnd (b - 0) * (uniformco F G s).1) + 0) < b
  rw [sub_zero, add_zero, mul_comm, hF.exact (hF.rep _)]
  exact hlt

/-- The upper limit, which `pdf` excludes, is returned because of rounding: `uniform_dist<double>(1, 1.5)`
returns 1.5. -/
theorem C71_uniform_dist_upper_wrong :
    ((RealParam.mk' float64 1 (3 / 2)).sample float64 (genAll (2 ^ 64 - 1)) (Fin.last _)).1 = 3 / 2 := by
  decide +kernel

example (s : LCG64) : 1 ≤ ((RealParam.mk' float64 1 2).sample float64 genLCG64 s).1 :=
  (C71_uniform_dist_partial float64_nearest (by decide) genLCG64_sound s ⟨1, 0, by decide, by norm_num⟩ ⟨1, 1, by decide, by norm_num⟩
    (by norm_num)).1

end Trng
