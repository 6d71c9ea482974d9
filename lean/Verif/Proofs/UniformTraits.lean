import Verif.Proofs.Uniform
import Verif.Spec.Uniform

/-! The integer side of uniformxx.hpp. -/
namespace Trng.Uniform
open FP

theorem bitsAux_spec (n top c : Nat) (h : top < 2 ^ n) :
    ∃ b, bitsAux n top c = c + b ∧ top < 2 ^ b ∧ (0 < top → 0 < b ∧ 2 ^ (b - 1) ≤ top) := by
  induction n generalizing top c with
  | zero => exact ⟨0, rfl, by simpa using h, fun h0 => by omega⟩
  | succ n ih =>
    unfold bitsAux
    split_ifs with h0
    · exact ⟨0, rfl, by omega, fun h => by omega⟩
    · obtain ⟨b, hb, h1, h2⟩ := ih (top / 2) (c + 1) (by rw [pow_succ] at h; omega)
      refine ⟨b + 1, by omega, by rw [pow_succ]; omega, fun _ => ⟨by omega, ?_⟩⟩
      rcases Nat.eq_zero_or_pos (top / 2) with hz | hz
      · have : top = 1 := by omega
        subst this
        rw [Nat.add_sub_cancel]
        rcases Nat.eq_zero_or_pos b with rfl | hb0
        · simp
        · exfalso
          have : bitsAux n (1 / 2) (c + 1) = c + 1 := by
            cases n <;> simp [bitsAux]
          omega
      · obtain ⟨hb0, h3⟩ := h2 hz
        rw [Nat.add_sub_cancel]
        obtain ⟨b', rfl⟩ : ∃ b', b = b' + 1 := ⟨b - 1, by omega⟩
        rw [Nat.add_sub_cancel] at h3
        rw [pow_succ]; omega

theorem bits_spec {top : Nat} (h : top < 2 ^ 64) (h0 : 0 < top) : top < 2 ^ bits top ∧ 0 < bits top ∧ 2 ^ (bits top - 1) ≤ top := by
  obtain ⟨b, hb, h1, h2⟩ := bitsAux_spec 64 top 0 h
  rw [Nat.zero_add] at hb
  rw [bits, hb]
  exact ⟨h1, h2 h0⟩

namespace Traits
variable (T : Traits)

theorem domainFullBits_pos (h : T.max0 < 2 ^ 64) (h0 : 0 < T.max0) : 0 < T.domainFullBits := by
  obtain ⟨h1, h2, h3⟩ := bits_spec h h0
  unfold domainFullBits domainBits
  split_ifs with hh
  · rcases Nat.lt_or_ge 1 (bits T.max0) with hb | hb
    · omega
    · have : bits T.max0 = 1 := by omega
      rw [this] at h1 h3
      have h4 : T.max0 = 1 := by omega
      rw [h4] at hh
      exact absurd hh (by decide)
  · omega

theorem callsNeeded_one (h : T.max0 < 2 ^ 64) (h0 : 0 < T.max0) (hp : 1 ≤ T.F.p) (hr : T.req = 1) : T.callsNeeded = 1 := by
  have hd := T.domainFullBits_pos h h0
  have hb : T.nbits = 1 := by
    unfold nbits; rw [hr]; simp only; split_ifs <;> omega
  unfold callsNeeded
  rw [hb]
  rcases Nat.lt_or_ge 1 T.domainFullBits with h1 | h1
  · rw [Nat.div_eq_of_lt h1, Nat.mod_eq_of_lt h1]; rfl
  · have : T.domainFullBits = 1 := by omega
    rw [this]; rfl

/-- The integer that is converted. -/
def red (x : Nat) : Nat := if T.useLLOfShifted then x >>> 1 else x

theorem toSigned_eq {w x : Nat} (h : 2 * x < 2 ^ w) : toSigned w x = x := by
  unfold toSigned
  have h2 : 2 * (x : ℤ) < 2 ^ w := by exact_mod_cast h
  rw [Int.bmod_eq_of_le_mul_two] <;> push_cast <;> omega

theorem addin_eq (h : T.max0 < 2 ^ 64) {x : Nat} (hx : x ≤ T.max0) : T.addin x = T.F.rnd (T.red x) := by
  rcases Nat.eq_zero_or_pos T.max0 with h0 | h0
  · have : x = 0 := by omega
    subst this
    have hl : T.longLongOk = true := by simp [longLongOk, domainBits, h0, bits, bitsAux]
    have : T.intOk = true := by simp [intOk, domainBits, h0, bits, bitsAux]
    have hu : T.useLLOfShifted = false := by simp [useLLOfShifted, hl]
    simp [addin, this, red, hu, toSigned]
  obtain ⟨h1, h2, -⟩ := bits_spec h h0
  have key : ∀ n, T.domainBits < n → 2 * x < 2 ^ n := by
    intro n hn
    have a : 2 ^ (bits T.max0 + 1) ≤ 2 ^ n := Nat.pow_le_pow_right (by omega) hn
    rw [pow_succ] at a
    omega
  by_cases hl : T.domainBits < 64
  · have hu : T.useLLOfShifted = false := by simp [useLLOfShifted, longLongOk, hl]
    have h64 : T.longOk = true := by simp [longOk, hl]
    unfold addin red
    rw [h64, hu]
    by_cases hi : T.domainBits < 32
    · rw [if_pos (by simp [intOk, hi]), toSigned_eq (key 32 hi)]; rfl
    · rw [if_neg (by simp [intOk, hi]), if_pos rfl, toSigned_eq (key 64 hl)]; rfl
  · unfold addin red
    rw [if_neg (by simp [intOk]; omega), if_neg (by simp [longOk]; omega), if_neg (by simp [longLongOk]; omega)]
    split_ifs with hu
    · rw [toSigned_eq (by rw [Nat.shiftRight_eq_div_pow]; omega)]; rfl
    · rfl

theorem red_le {x : Nat} (hx : x ≤ T.max0) : T.red x ≤ T.domainMax := by
  unfold red domainMax
  split_ifs
  · rw [Nat.shiftRight_eq_div_pow, Nat.shiftRight_eq_div_pow]; exact Nat.div_le_div_right hx
  · exact hx

theorem domainMax_pos (h0 : 0 < T.max0) : 0 < T.domainMax := by
  unfold domainMax
  split_ifs with h
  · simp only [useLLOfShifted, Bool.and_eq_true, beq_iff_eq] at h
    rw [h.1.2]; norm_num
  · exact h0

theorem domainMax_two (h0 : 2 ≤ T.max0) : 2 ≤ T.domainMax := by
  unfold domainMax
  split_ifs with h
  · simp only [useLLOfShifted, Bool.and_eq_true, beq_iff_eq] at h
    rw [h.1.2]; norm_num
  · exact h0

section
variable {T} (hF : Nearest T.F)
include hF

omit hF in
theorem rep_one (hp : 1 ≤ T.F.p) : Rep T.F.p 1 := by simpa using Rep.two_zpow (p := T.F.p) hp 0

theorem rnd_domainMax_ge (hp : 1 ≤ T.F.p) (h0 : 0 < T.max0) : 1 ≤ T.F.rnd T.domainMax :=
  hF.ge_of_ge (rep_one hp) (by exact_mod_cast T.domainMax_pos h0)

theorem scale_nonneg (hp : 1 ≤ T.F.p) (h0 : 0 < T.max0) : 0 ≤ T.scalePerStep :=
  hF.nonneg (by linarith [rnd_domainMax_ge hF hp h0])

theorem variateMaxLoop_ge (hp : 1 ≤ T.F.p) (h0 : 0 < T.max0) (n : Nat) : 1 ≤ T.variateMaxLoop n := by
  induction n with
  | zero => exact rnd_domainMax_ge hF hp h0
  | succ n ih =>
    apply hF.ge_of_ge (rep_one hp)
    have := hF.nonneg (mul_nonneg (by linarith : (0 : ℚ) ≤ T.variateMaxLoop n) (scale_nonneg hF hp h0))
    linarith [rnd_domainMax_ge hF hp h0]

theorem addin_range (h : T.max0 < 2 ^ 64) {x : Nat} (hx : x ≤ T.max0) : 0 ≤ T.addin x ∧ T.addin x ≤ T.F.rnd T.domainMax := by
  rw [T.addin_eq h hx]
  exact ⟨hF.nonneg (by positivity), hF.mono (by exact_mod_cast T.red_le hx)⟩

theorem variateLoop_range (hp : 1 ≤ T.F.p) {σ : Type} {G : Gen σ} (hG : G.Sound) (hT : T.max0 = G.max - G.min) (s : σ) (n : Nat) :
    0 ≤ (T.variateLoop G s n).1 ∧ (T.variateLoop G s n).1 ≤ T.variateMaxLoop n := by
  have h : T.max0 < 2 ^ 64 := hT ▸ hG.small
  have h0 : 0 < T.max0 := by have := hG.lt; omega
  have ha : ∀ s, 0 ≤ T.addin ((G.call s).1 - G.min) ∧ T.addin ((G.call s).1 - G.min) ≤ T.F.rnd T.domainMax := fun s =>
    addin_range hF h (by have := hG.range s; omega)
  induction n with
  | zero => exact ha s
  | succ n ih =>
    have hs := scale_nonneg hF hp h0
    have := ha (T.variateLoop G s n).2
    refine ⟨hF.nonneg (add_nonneg (hF.nonneg (mul_nonneg ih.1 hs)) this.1), hF.mono (add_le_add (hF.mono ?_) this.2)⟩
    exact mul_le_mul_of_nonneg_right ih.2 hs

theorem eps_rep (hp : 1 ≤ T.F.p) : Rep T.F.p T.eps := by
  simp only [eps]
  split_ifs
  · exact Rep.two_zpow hp _
  · exact hF.rep _

omit hF in
theorem nativeEps_eq : T.nativeEps = 2 * ulp T.F := by
  rw [nativeEps, ulp, sub_eq_add_neg, zpow_split, zpow_one]

omit hF in
theorem eps_ge : 2 * ulp T.F ≤ T.eps := by
  rw [← nativeEps_eq]
  simp only [eps]
  split_ifs with h
  · exact le_rfl
  · push Not at h
    exact h.1.le

theorem eps_le_one (hp : 1 ≤ T.F.p) (h0 : 0 < T.max0) : T.eps ≤ 1 := by
  simp only [eps]
  split_ifs with h
  · rw [nativeEps]
    exact zpow_le_one_of_nonpos₀ (by norm_num) (by omega)
  · have := rnd_domainMax_ge hF hp h0
    exact hF.le_of_le (rep_one hp) (by rw [div_le_iff₀ (by linarith)]; linarith)

theorem eps_le_half (hp : 2 ≤ T.F.p) (h0 : 2 ≤ T.max0) : T.eps ≤ 1 / 2 := by
  have hr2 : Rep T.F.p 2 := by simpa using Rep.two_zpow (p := T.F.p) (by omega) 1
  have hr : Rep T.F.p (1 / 2) := by simpa using Rep.two_zpow (p := T.F.p) (by omega) (-1)
  simp only [eps]
  split_ifs with h
  · rw [nativeEps]
    have : (2 : ℚ) ^ (1 - T.F.p : ℤ) ≤ 2 ^ (-1 : ℤ) := zpow_le_zpow_right₀ (by norm_num) (by omega)
    norm_num at this ⊢; exact this
  · have : 2 ≤ T.F.rnd T.domainMax := hF.ge_of_ge hr2 (by exact_mod_cast T.domainMax_two h0)
    exact hF.le_of_le hr (by rw [div_le_div_iff₀ (by linarith) (by norm_num)]; linarith)

theorem ccNorm_nonneg (hp : 1 ≤ T.F.p) (h0 : 0 < T.max0) : 0 ≤ T.ccNorm :=
  hF.nonneg (by have := variateMaxLoop_ge hF hp h0 (T.callsNeeded - 1); rw [variateMax]; positivity)

theorem coNorm_nonneg (hp : 1 ≤ T.F.p) (h0 : 0 < T.max0) : 0 ≤ T.coNorm :=
  hF.nonneg (mul_nonneg (ccNorm_nonneg hF hp h0) (hF.nonneg (by linarith [eps_le_one hF hp h0])))

theorem co_range (hp : 2 ≤ T.F.p) {σ : Type} {G : Gen σ} (hG : G.Sound) (hT : T.max0 = G.max - G.min) (s : σ) :
    0 ≤ (T.co G s).1 ∧ (T.co G s).1 < 1 := by
  have hp1 : 1 ≤ T.F.p := by omega
  have h0 : 0 < T.max0 := by have := hG.lt; omega
  obtain ⟨v0, v1⟩ := variateLoop_range hF hp1 hG hT s (T.callsNeeded - 1)
  have hc := coNorm_nonneg hF hp1 h0
  refine ⟨hF.nonneg (mul_nonneg v0 hc), ?_⟩
  have hV := variateMaxLoop_ge hF hp1 h0 (T.callsNeeded - 1)
  refine lt_of_le_of_lt (hF.mono (mul_le_mul_of_nonneg_right v1 hc)) ?_
  have ht : T.F.rnd (1 - T.eps) ≤ 1 - 2 * ulp T.F := by
    have hu4 : ulp T.F ≤ 1 / 4 := by have := ulp_le (F := T.F) hp; norm_num at this; linarith
    have := rep_one_sub' (F := T.F) hp1 2 (by norm_num) (by push_cast; linarith)
    push_cast at this
    exact hF.le_of_le this (by linarith [eps_ge (T := T)])
  exact co_core hF hp (by linarith) ht

end
end Traits
end Trng.Uniform
