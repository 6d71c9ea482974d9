import Verif.Spec.Float
import Mathlib.Tactic.Linarith
import Mathlib.Tactic.Positivity
import Mathlib.Tactic.FieldSimp
import Mathlib.Tactic.Ring
import Mathlib.Algebra.Order.Field.Power

/-! Lemmas on representable numbers and rounding to nearest. -/
namespace Trng.FP

variable {p : Nat}

theorem two_zpow_pos (e : ℤ) : (0 : ℚ) < 2 ^ e := by positivity

theorem zpow_split (a b : ℤ) : (2 : ℚ) ^ (a + b) = 2 ^ a * 2 ^ b := zpow_add₀ (by norm_num) a b

theorem pow_toNat {a : ℤ} (h : 0 ≤ a) : (2 : ℚ) ^ a = ((2 ^ a.toNat : ℤ) : ℚ) := by
  obtain ⟨n, rfl⟩ := Int.eq_ofNat_of_zero_le h
  simp

theorem Rep.of_le (hp : 1 ≤ p) {k e : ℤ} (h : |k| ≤ 2 ^ p) : Rep p (k * 2 ^ e) := by
  rcases lt_or_eq_of_le h with h | h
  · exact ⟨k, e, h, rfl⟩
  · have h2 : (2 : ℤ) ^ p = 2 * 2 ^ (p - 1) := by
      rw [← pow_succ']; congr 1; omega
    have hlt : (2 : ℤ) ^ (p - 1) < 2 ^ p := by rw [h2]; have : (0 : ℤ) < 2 ^ (p - 1) := by positivity
                                               omega
    rcases abs_choice k with hk | hk
    · refine ⟨2 ^ (p - 1), e + 1, by rwa [abs_of_pos (by positivity)], ?_⟩
      rw [hk] at h
      rw [h, h2, zpow_split]; push_cast; ring
    · refine ⟨-2 ^ (p - 1), e + 1, by rwa [abs_neg, abs_of_pos (by positivity)], ?_⟩
      rw [hk] at h
      rw [show k = -(2 * 2 ^ (p - 1)) by rw [← h2, ← h]; ring, zpow_split]; push_cast; ring

theorem Rep.zero : Rep p 0 := ⟨0, 0, by simp, by simp⟩

theorem Rep.neg {y : ℚ} (h : Rep p y) : Rep p (-y) := by
  obtain ⟨k, e, hk, rfl⟩ := h
  exact ⟨-k, e, by rwa [abs_neg], by push_cast; ring⟩

theorem Rep.two_zpow (hp : 1 ≤ p) (e : ℤ) : Rep p (2 ^ e) := by
  have := Rep.of_le (p := p) hp (k := 1) (e := e) (by rw [abs_one]; exact_mod_cast Nat.one_le_two_pow)
  simpa using this

theorem Rep.scale {y : ℚ} (h : Rep p y) (f : ℤ) : Rep p (y * 2 ^ f) := by
  obtain ⟨k, e, hk, rfl⟩ := h
  exact ⟨k, e + f, hk, by rw [zpow_split]; ring⟩

/-- Above `2^f` representable numbers are multiples of `2^(f+1-p)`. -/
theorem Rep.multiple {y : ℚ} (h : Rep p y) {f : ℤ} (hy : 2 ^ f ≤ |y|) : ∃ j : ℤ, y = j * 2 ^ (f + 1 - p) := by
  obtain ⟨k, e, hk, rfl⟩ := h
  rcases le_or_gt (f + 1 - p) e with he | he
  · refine ⟨k * 2 ^ (e - (f + 1 - p)).toNat, ?_⟩
    push_cast
    have : ((2 : ℚ) ^ (e - (f + 1 - p)).toNat) = 2 ^ (e - (f + 1 - p)) := by
      rw [pow_toNat (by omega)]; push_cast; rfl
    rw [this, mul_assoc, ← zpow_split]
    congr 2; omega
  · exfalso
    rw [abs_mul, abs_of_pos (two_zpow_pos e)] at hy
    have h1 : (2 : ℚ) ^ (f - e) ≤ |(k : ℚ)| := by
      rw [zpow_sub₀ (by norm_num), div_le_iff₀ (two_zpow_pos e)]; exact hy
    have h2 : (2 : ℚ) ^ (p : ℤ) ≤ 2 ^ (f - e) := zpow_le_zpow_right₀ (by norm_num) (by omega)
    have h3 : (|(k : ℚ)|) < 2 ^ (p : ℤ) := by
      rw [zpow_natCast]; exact_mod_cast hk
    linarith

/-- Numbers on the grid of spacing `2^(f-p)` up to `2^f` are representable. -/
theorem Rep.grid (hp : 1 ≤ p) {j f : ℤ} (h : |(j : ℚ) * 2 ^ (f - p)| ≤ 2 ^ f) : Rep p (j * 2 ^ (f - p)) := by
  apply Rep.of_le hp
  rw [abs_mul, abs_of_pos (two_zpow_pos _)] at h
  have : (|(j : ℚ)|) ≤ 2 ^ (p : ℤ) := by
    have e : (2 : ℚ) ^ f = 2 ^ (p : ℤ) * 2 ^ (f - p) := by rw [← zpow_split]; congr 1; omega
    rw [e] at h
    exact le_of_mul_le_mul_right h (two_zpow_pos _)
  rw [zpow_natCast] at this
  exact_mod_cast this

section
variable {F : Fmt} (hF : Nearest F)
include hF

theorem Nearest.rep (x : ℚ) : Rep F.p (F.rnd x) := (hF x).1

theorem Nearest.exact {y : ℚ} (h : Rep F.p y) : F.rnd y = y := by
  have := (hF y).2 y h
  rw [sub_self, abs_zero] at this
  exact sub_eq_zero.1 (abs_eq_zero.1 (le_antisymm this (abs_nonneg _)))

theorem Nearest.mono {x y : ℚ} (h : x ≤ y) : F.rnd x ≤ F.rnd y := by
  rcases eq_or_lt_of_le h with rfl | h
  · exact le_rfl
  by_contra hc
  push Not at hc
  have h1 := (hF x).2 _ (hF.rep y)
  have h2 := (hF y).2 _ (hF.rep x)
  rw [← sq_le_sq] at h1 h2
  nlinarith

theorem Nearest.le_of_le {x y : ℚ} (hy : Rep F.p y) (h : x ≤ y) : F.rnd x ≤ y := by
  rw [← hF.exact hy]; exact hF.mono h

theorem Nearest.ge_of_ge {x y : ℚ} (hy : Rep F.p y) (h : y ≤ x) : y ≤ F.rnd x := by
  rw [← hF.exact hy]; exact hF.mono h

theorem Nearest.zero : F.rnd 0 = 0 := hF.exact Rep.zero

theorem Nearest.nonneg {x : ℚ} (h : 0 ≤ x) : 0 ≤ F.rnd x := hF.ge_of_ge Rep.zero h

/-- Closer to the representable `a` than to `b`, `a < b`: the rounded value is below `b`. -/
theorem Nearest.lt_of_lt_mid {x a b : ℚ} (ha : Rep F.p a) (hab : a < b) (h : x < (a + b) / 2) : F.rnd x < b := by
  rcases le_or_gt x a with hx | hx
  · exact lt_of_le_of_lt (hF.le_of_le ha hx) hab
  · have := (hF x).2 a ha
    rw [abs_of_neg (by linarith : a - x < 0)] at this
    have := le_abs_self (F.rnd x - x)
    linarith

/-- Absolute error. -/
theorem Nearest.err (hp : 1 ≤ F.p) {x : ℚ} {f : ℤ} (h : |x| ≤ 2 ^ f) : |F.rnd x - x| ≤ 2 ^ (f - F.p) / 2 := by
  have hs := two_zpow_pos (f - F.p)
  have hb : |((round (x / 2 ^ (f - F.p)) : ℤ) : ℚ) * 2 ^ (f - F.p) - x| ≤ 2 ^ (f - F.p) / 2 := by
    have := abs_sub_round (x / 2 ^ (f - F.p))
    rw [abs_sub_comm] at this
    have e : ((round (x / 2 ^ (f - F.p)) : ℤ) : ℚ) * 2 ^ (f - F.p) - x =
      (((round (x / 2 ^ (f - F.p)) : ℤ) : ℚ) - x / 2 ^ (f - F.p)) * 2 ^ (f - F.p) := by field_simp
    rw [e, abs_mul, abs_of_pos hs]
    nlinarith
  refine le_trans ((hF x).2 _ (Rep.grid hp ?_)) hb
  -- the nearest grid point is still within 2^f
  have e : (2 : ℚ) ^ f = ((2 ^ F.p : ℤ) : ℚ) * 2 ^ (f - F.p) := by
    push_cast; rw [← zpow_natCast, ← zpow_split]; congr 1; omega
  rw [abs_mul, abs_of_pos hs, e]
  apply mul_le_mul_of_nonneg_right _ hs.le
  have hq : |x / 2 ^ (f - F.p)| ≤ ((2 ^ F.p : ℤ) : ℚ) := by
    rw [abs_div, abs_of_pos hs, div_le_iff₀ hs, ← e]; exact h
  rw [abs_le] at hq
  rw [← Int.cast_abs]
  apply Int.cast_le.2
  rw [abs_le]
  constructor
  · rw [round_eq, Int.le_floor]
    push_cast at hq ⊢
    linarith [hq.1]
  · rw [round_eq, ← Int.lt_add_one_iff, Int.floor_lt]
    push_cast at hq ⊢
    linarith [hq.2]

/-- Relative error. -/
theorem Nearest.rel (hp : 1 ≤ F.p) (x : ℚ) : |F.rnd x - x| ≤ |x| * 2 ^ (-(F.p : ℤ)) := by
  rcases eq_or_ne x 0 with rfl | hx
  · simp [hF.zero]
  · have hpos := abs_pos.2 hx
    have h1 : (2 : ℚ) ^ Int.log 2 |x| ≤ |x| := by exact_mod_cast Int.zpow_log_le_self (b := 2) (by norm_num) hpos
    have h2 : |x| < (2 : ℚ) ^ (Int.log 2 |x| + 1) := by
      exact_mod_cast Int.lt_zpow_succ_log_self (b := 2) (by norm_num) |x|
    have := hF.err hp h2.le
    refine this.trans ?_
    rw [sub_eq_add_neg, zpow_split, zpow_split]
    have := two_zpow_pos (-(F.p : ℤ))
    rw [zpow_one]
    nlinarith

end

/-! `rne` is such a rounding. -/

theorem rneInt_err (q : ℚ) : |(rneInt q : ℚ) - q| ≤ 1 / 2 ∧ ∀ j : ℤ, |(rneInt q : ℚ) - q| ≤ |(j : ℚ) - q| := by
  have h0 := Int.floor_le q
  have h1 := Int.lt_floor_add_one q
  have key : ∀ r : ℤ, |(r : ℚ) - q| ≤ 1 / 2 → |(r : ℚ) - q| ≤ 1 / 2 ∧ ∀ j : ℤ, |(r : ℚ) - q| ≤ |(j : ℚ) - q| := by
    intro r hr
    refine ⟨hr, fun j => ?_⟩
    by_cases hj : j = r
    · rw [hj]
    · have h2 : (1 : ℚ) ≤ |(j : ℚ) - r| := by
        rw [← Int.cast_sub, ← Int.cast_abs]
        exact_mod_cast Int.one_le_abs (sub_ne_zero.2 hj)
      have h3 : |(j : ℚ) - r| ≤ |(j : ℚ) - q| + |(r : ℚ) - q| := by
        have := abs_sub_le (j : ℚ) q r
        rwa [abs_sub_comm q] at this
      linarith
  apply key
  unfold rneInt
  split_ifs <;> rw [abs_le] <;> constructor <;> push_cast <;> linarith

theorem rnePos_near (hp : 1 ≤ p) {x : ℚ} (hx : 0 < x) :
    Rep p (rnePos p x) ∧ ∀ y, Rep p y → |rnePos p x - x| ≤ |y - x| := by
  have h1 : (2 : ℚ) ^ Int.log 2 x ≤ x := by exact_mod_cast Int.zpow_log_le_self (b := 2) (by norm_num) hx
  have h2 : x < (2 : ℚ) ^ (Int.log 2 x + 1) := by exact_mod_cast Int.lt_zpow_succ_log_self (b := 2) (by norm_num) x
  unfold rnePos
  generalize Int.log 2 x = f at *
  have hs := two_zpow_pos (f + 1 - p)
  obtain ⟨herr, hnear⟩ := rneInt_err (x / 2 ^ (f + 1 - p))
  generalize hr : rneInt (x / 2 ^ (f + 1 - p)) = r at *
  have eq : ∀ j : ℤ, |(j : ℚ) * 2 ^ (f + 1 - p) - x| = |(j : ℚ) - x / 2 ^ (f + 1 - p)| * 2 ^ (f + 1 - p) := by
    intro j
    have e : (j : ℚ) * 2 ^ (f + 1 - p) - x = ((j : ℚ) - x / 2 ^ (f + 1 - p)) * 2 ^ (f + 1 - p) := by field_simp
    rw [e, abs_mul, abs_of_pos hs]
  have e2 : (2 : ℚ) ^ (f + 1) = ((2 ^ p : ℤ) : ℚ) * 2 ^ (f + 1 - p) := by
    push_cast; rw [← zpow_natCast, ← zpow_split]; congr 1; omega
  have e3 : (2 : ℚ) ^ f = ((2 ^ (p - 1) : ℤ) : ℚ) * 2 ^ (f + 1 - p) := by
    push_cast; rw [← zpow_natCast, ← zpow_split]; congr 1; omega
  have hge : ∀ j : ℤ, |(r : ℚ) * 2 ^ (f + 1 - p) - x| ≤ |(j : ℚ) * 2 ^ (f + 1 - p) - x| := by
    intro j
    rw [eq, eq]
    exact mul_le_mul_of_nonneg_right (hnear j) hs.le
  constructor
  · apply Rep.grid hp
    -- r ≤ 2^p: otherwise 2^p would be closer
    rw [abs_of_nonneg]
    · by_contra hc
      push Not at hc
      have := hge (2 ^ p)
      rw [← e2, abs_of_pos (by linarith), abs_of_pos (by linarith)] at this
      linarith
    · by_contra hc
      push Not at hc
      have := hge 0
      rw [Int.cast_zero, zero_mul, abs_of_neg (by linarith), abs_of_neg (by linarith)] at this
      linarith
  · intro y hy
    rcases le_or_gt ((2 : ℚ) ^ f) |y| with hb | hb
    · obtain ⟨j, rfl⟩ := hy.multiple hb
      exact hge j
    · refine (hge (2 ^ (p - 1))).trans ?_
      rw [← e3, abs_of_nonpos (by linarith), abs_of_nonpos]
      · have := le_abs_self y; linarith
      · have := le_abs_self y; linarith

/-- Round-to-nearest-even meets the specification. -/
theorem rne_nearest (hp : 1 ≤ p) : Nearest ⟨p, rne p⟩ := by
  intro x
  show Rep p (rne p x) ∧ ∀ y, Rep p y → |rne p x - x| ≤ |y - x|
  unfold rne
  split_ifs with h0 hpos
  · subst h0
    exact ⟨Rep.zero, fun y _ => by simp⟩
  · exact rnePos_near hp hpos
  · have hneg : 0 < -x := by
      rcases lt_trichotomy x 0 with h | h | h
      · linarith
      · exact absurd h h0
      · exact absurd h hpos
    obtain ⟨a, b⟩ := rnePos_near hp hneg
    refine ⟨a.neg, fun y hy => ?_⟩
    have := b (-y) hy.neg
    rw [← abs_neg, show -(rnePos p (-x) - -x) = -rnePos p (-x) - x by ring, ← abs_neg (-y - -x),
      show -(-y - -x) = y - x by ring] at this
    exact this

end Trng.FP
