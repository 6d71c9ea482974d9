import Verif.Model.UInt128
import Mathlib.Data.BitVec
import Mathlib.Tactic.Ring
import Mathlib.Tactic.LinearCombination
import Mathlib.Data.Nat.ModEq
import Mathlib.Tactic.Linarith
import Mathlib.Data.Nat.Bitwise
/- Helper lemmas for the portable 128-bit integers. -/
namespace Trng.PU128

/-- the 128-bit integer represented by a pair of words -/
def bv (a : PU128) : BitVec 128 := a.hi ++ a.lo

/-- the same as a natural number -/
def val (a : PU128) : Nat := a.hi.toNat * 2 ^ 64 + a.lo.toNat

theorem bv_toNat (a : PU128) : (bv a).toNat = val a := by
  rw [bv, BitVec.toNat_append, ← Nat.shiftLeft_add_eq_or_of_lt a.lo.isLt, Nat.shiftLeft_eq, val]

theorem val_lt (a : PU128) : val a < 2 ^ 128 := by rw [← bv_toNat]; exact (bv a).isLt

theorem bv_eq_iff (a : PU128) (x : BitVec 128) : bv a = x ↔ val a = x.toNat := by
  rw [← bv_toNat, BitVec.toNat_eq]

theorem val_injective {a b : PU128} (h : val a = val b) : a = b := by
  have h1 := a.lo.isLt; have h2 := b.lo.isLt
  simp only [val] at h
  ext1 <;> apply BitVec.eq_of_toNat_eq <;> omega

theorem b2u_toNat (b : Bool) : (b2u b).toNat = if b then 1 else 0 := by
  cases b <;> rfl

theorem val_inc (a : PU128) : val (inc a) = (val a + 1) % 2 ^ 128 := by
  have h1 := a.lo.isLt; have h2 := a.hi.isLt
  unfold inc
  by_cases h : a.lo + 1 = 0
  · simp only [h, if_true]
    have h' := congrArg BitVec.toNat h
    simp only [val, BitVec.toNat_add, BitVec.toNat_ofNat, BitVec.ofNat_eq_ofNat] at *
    omega
  · simp only [h, if_false]
    have h' : (a.lo + 1).toNat ≠ 0 := fun hh => h (BitVec.eq_of_toNat_eq (by simpa using hh))
    simp only [val, BitVec.toNat_add, BitVec.toNat_ofNat, BitVec.ofNat_eq_ofNat] at *
    omega

theorem val_dec (a : PU128) : val (dec a) = (val a + (2 ^ 128 - 1)) % 2 ^ 128 := by
  have h1 := a.lo.isLt; have h2 := a.hi.isLt
  unfold dec
  by_cases h : a.lo = 0
  · simp only [h, if_true]
    have h' := congrArg BitVec.toNat h
    simp only [val, BitVec.toNat_sub, BitVec.toNat_ofNat, BitVec.ofNat_eq_ofNat] at *
    omega
  · simp only [h, if_false]
    have h' : a.lo.toNat ≠ 0 := fun hh => h (BitVec.eq_of_toNat_eq (by simpa using hh))
    simp only [val, BitVec.toNat_sub, BitVec.toNat_ofNat, BitVec.ofNat_eq_ofNat] at *
    omega

theorem val_add (a b : PU128) : val (add a b) = (val a + val b) % 2 ^ 128 := by
  have h1 := a.lo.isLt; have h2 := a.hi.isLt
  have h3 := b.lo.isLt; have h4 := b.hi.isLt
  simp only [add, val, BitVec.toNat_add, b2u_toNat, decide_eq_true_eq, BitVec.lt_def]
  split <;> omega

theorem val_sub (a b : PU128) : val (sub a b) = (val a + (2 ^ 128 - val b)) % 2 ^ 128 := by
  have h1 := a.lo.isLt; have h2 := a.hi.isLt
  have h3 := b.lo.isLt; have h4 := b.hi.isLt
  simp only [sub, val, BitVec.toNat_sub, b2u_toNat, decide_eq_true_eq, BitVec.lt_def, gt_iff_lt]
  split <;> omega

theorem val_create (h l : BitVec 64) : val (create h l) = h.toNat * 2 ^ 64 + l.toNat := rfl

theorem lt_iff (a b : PU128) : lt a b = true ↔ val a < val b := by
  have h1 := a.lo.isLt; have h2 := a.hi.isLt
  have h3 := b.lo.isLt; have h4 := b.hi.isLt
  simp only [lt, val, Bool.or_eq_true, Bool.and_eq_true, decide_eq_true_eq, beq_iff_eq,
    BitVec.lt_def, BitVec.toNat_eq]
  omega
theorem le_iff (a b : PU128) : le a b = true ↔ val a ≤ val b := by
  have h1 := a.lo.isLt; have h2 := a.hi.isLt
  have h3 := b.lo.isLt; have h4 := b.hi.isLt
  simp only [le, val, Bool.or_eq_true, Bool.and_eq_true, decide_eq_true_eq, beq_iff_eq,
    BitVec.lt_def, BitVec.toNat_eq, BitVec.le_def]
  omega
theorem gt_iff (a b : PU128) : gt a b = true ↔ val b < val a := by
  have h1 := a.lo.isLt; have h2 := a.hi.isLt
  have h3 := b.lo.isLt; have h4 := b.hi.isLt
  simp only [gt, val, Bool.or_eq_true, Bool.and_eq_true, decide_eq_true_eq, beq_iff_eq,
    BitVec.lt_def, BitVec.toNat_eq, gt_iff_lt]
  omega
theorem ge_iff (a b : PU128) : ge a b = true ↔ val b ≤ val a := by
  have h1 := a.lo.isLt; have h2 := a.hi.isLt
  have h3 := b.lo.isLt; have h4 := b.hi.isLt
  simp only [ge, val, Bool.or_eq_true, Bool.and_eq_true, decide_eq_true_eq, beq_iff_eq,
    BitVec.lt_def, BitVec.toNat_eq, gt_iff_lt, BitVec.le_def, ge_iff_le]
  omega
theorem eq_iff (a b : PU128) : eq a b = true ↔ val a = val b := by
  have h1 := a.lo.isLt; have h2 := a.hi.isLt
  have h3 := b.lo.isLt; have h4 := b.hi.isLt
  simp only [eq, val, Bool.and_eq_true, beq_iff_eq, BitVec.toNat_eq]
  omega
theorem ne_iff (a b : PU128) : ne a b = true ↔ val a ≠ val b := by
  have h1 := a.lo.isLt; have h2 := a.hi.isLt
  have h3 := b.lo.isLt; have h4 := b.hi.isLt
  simp only [ne, val, Bool.or_eq_true, bne_iff_ne, Ne, BitVec.toNat_eq]
  omega

/-! ### multiplication -/

theorem val_hi_add (a : PU128) (m : BitVec 64) :
    val ⟨a.lo, a.hi + m⟩ ≡ val a + m.toNat * 2 ^ 64 [MOD 2 ^ 128] := by
  have h1 := a.lo.isLt; have h2 := a.hi.isLt; have h3 := m.isLt
  simp only [val, BitVec.toNat_add, Nat.ModEq]
  omega

theorem lo32 (x : BitVec 64) : (x &&& 0xffffffff).toNat = x.toNat % 2 ^ 32 := by
  rw [BitVec.toNat_and]
  exact Nat.and_two_pow_sub_one_eq_mod _ 32

theorem hi32 (x : BitVec 64) : (x >>> 32).toNat = x.toNat / 2 ^ 32 := by
  rw [BitVec.toNat_ushiftRight, Nat.shiftRight_eq_div_pow]

theorem mul32 (x y : BitVec 64) (hx : x.toNat < 2 ^ 32) (hy : y.toNat < 2 ^ 32) :
    (x * y).toNat = x.toNat * y.toNat := by
  rw [BitVec.toNat_mul]
  apply Nat.mod_eq_of_lt
  calc x.toNat * y.toNat < 2 ^ 32 * 2 ^ 32 := Nat.mul_lt_mul'' hx hy
    _ = 2 ^ 64 := by norm_num

theorem val_split32 (x : BitVec 64) :
    val (create (x >>> 32) (x <<< 32)) = x.toNat * 2 ^ 32 := by
  have h := x.isLt
  rw [val_create, hi32, BitVec.toNat_shiftLeft, Nat.shiftLeft_eq]
  omega

theorem shl32 (x : BitVec 64) :
    (x <<< 32).toNat * 2 ^ 64 ≡ x.toNat * 2 ^ 32 * 2 ^ 64 [MOD 2 ^ 128] := by
  rw [BitVec.toNat_shiftLeft, Nat.shiftLeft_eq]
  have : (2 : Nat) ^ 128 = 2 ^ 64 * 2 ^ 64 := by norm_num
  rw [this]
  exact Nat.ModEq.mul_right' _ (Nat.mod_modEq _ _)

theorem val_mul (a b : PU128) : val (mul a b) = (val a * val b) % 2 ^ 128 := by
  have e1 := lo32 a.lo; have e2 := hi32 a.lo; have e3 := lo32 a.hi; have e4 := hi32 a.hi
  have f1 := lo32 b.lo; have f2 := hi32 b.lo; have f3 := lo32 b.hi; have f4 := hi32 b.hi
  have ha : val a = ((a.hi >>> 32).toNat * 2 ^ 32 + (a.hi &&& 0xffffffff).toNat) * 2 ^ 64 +
      ((a.lo >>> 32).toNat * 2 ^ 32 + (a.lo &&& 0xffffffff).toNat) := by
    simp only [val, e1, e2, e3, e4]; omega
  have hb : val b = ((b.hi >>> 32).toNat * 2 ^ 32 + (b.hi &&& 0xffffffff).toNat) * 2 ^ 64 +
      ((b.lo >>> 32).toNat * 2 ^ 32 + (b.lo &&& 0xffffffff).toNat) := by
    simp only [val, f1, f2, f3, f4]; omega
  have g1 : (a.lo &&& 0xffffffff).toNat < 2 ^ 32 := by rw [e1]; omega
  have g2 : (a.lo >>> 32).toNat < 2 ^ 32 := by rw [e2]; have := a.lo.isLt; omega
  have g3 : (a.hi &&& 0xffffffff).toNat < 2 ^ 32 := by rw [e3]; omega
  have g4 : (a.hi >>> 32).toNat < 2 ^ 32 := by rw [e4]; have := a.hi.isLt; omega
  have k1 : (b.lo &&& 0xffffffff).toNat < 2 ^ 32 := by rw [f1]; omega
  have k2 : (b.lo >>> 32).toNat < 2 ^ 32 := by rw [f2]; have := b.lo.isLt; omega
  have k3 : (b.hi &&& 0xffffffff).toNat < 2 ^ 32 := by rw [f3]; omega
  have k4 : (b.hi >>> 32).toNat < 2 ^ 32 := by rw [f4]; have := b.hi.isLt; omega
  clear e1 e2 e3 e4 f1 f2 f3 f4
  rw [← Nat.mod_eq_of_lt (val_lt (mul a b))]
  rw [ha, hb]
  unfold mul
  simp only
  generalize (a.lo &&& 0xffffffff) = lo0 at *
  generalize (a.lo >>> 32) = lo1 at *
  generalize (a.hi &&& 0xffffffff) = hi0 at *
  generalize (a.hi >>> 32) = hi1 at *
  generalize (b.lo &&& 0xffffffff) = blo0 at *
  generalize (b.lo >>> 32) = blo1 at *
  generalize (b.hi &&& 0xffffffff) = bhi0 at *
  generalize (b.hi >>> 32) = bhi1 at *
  clear ha hb
  set T := add (add (create 0 (lo0 * blo0)) (create ((lo1 * blo0) >>> 32) ((lo1 * blo0) <<< 32)))
    (create ((lo0 * blo1) >>> 32) ((lo0 * blo1) <<< 32)) with hT
  have hTv : val T ≡ lo0.toNat * blo0.toNat + lo1.toNat * blo0.toNat * 2 ^ 32 +
      lo0.toNat * blo1.toNat * 2 ^ 32 [MOD 2 ^ 128] := by
    rw [hT, val_add, val_add, val_split32, val_split32, mul32 _ _ g2 k1, mul32 _ _ g1 k2,
      val_create, mul32 _ _ g1 k1]
    refine (Nat.mod_modEq _ _).trans ?_
    refine Nat.ModEq.add_right _ ?_
    refine (Nat.mod_modEq _ _).trans ?_
    simp; rfl
  clear_value T
  have step : ∀ (t : PU128) (X : Nat) (m : BitVec 64) (Y : Nat), val t ≡ X [MOD 2 ^ 128] →
      m.toNat * 2 ^ 64 ≡ Y [MOD 2 ^ 128] →
      val ⟨t.lo, t.hi + m⟩ ≡ X + Y [MOD 2 ^ 128] := fun t X m Y h1 h2 =>
    (val_hi_add t m).trans (h1.add h2)
  have m6 := shl32 (hi1 * blo0); have m7 := shl32 (lo0 * bhi1)
  have m8 := shl32 (hi0 * blo1); have m9 := shl32 (lo1 * bhi0)
  rw [mul32 _ _ g4 k1] at m6; rw [mul32 _ _ g1 k4] at m7
  rw [mul32 _ _ g3 k2] at m8; rw [mul32 _ _ g2 k3] at m9
  have m3 : (hi0 * blo0).toNat * 2 ^ 64 ≡ hi0.toNat * blo0.toNat * 2 ^ 64 [MOD 2 ^ 128] := by
    rw [mul32 _ _ g3 k1]
  have m4 : (lo0 * bhi0).toNat * 2 ^ 64 ≡ lo0.toNat * bhi0.toNat * 2 ^ 64 [MOD 2 ^ 128] := by
    rw [mul32 _ _ g1 k3]
  have m5 : (lo1 * blo1).toNat * 2 ^ 64 ≡ lo1.toNat * blo1.toNat * 2 ^ 64 [MOD 2 ^ 128] := by
    rw [mul32 _ _ g2 k2]
  have h := step _ _ _ _ (step _ _ _ _ (step _ _ _ _ (step _ _ _ _ (step _ _ _ _
    (step _ _ _ _ (step _ _ _ _ hTv m3) m4) m5) m6) m7) m8) m9
  refine h.trans ?_
  clear h m3 m4 m5 m6 m7 m8 m9 hTv step
  generalize lo0.toNat = x0 at *
  generalize lo1.toNat = x1 at *
  generalize hi0.toNat = x2 at *
  generalize hi1.toNat = x3 at *
  generalize blo0.toNat = y0 at *
  generalize blo1.toNat = y1 at *
  generalize bhi0.toNat = y2 at *
  generalize bhi1.toNat = y3 at *
  have key : ((x3 * 2 ^ 32 + x2) * 2 ^ 64 + (x1 * 2 ^ 32 + x0)) *
      ((y3 * 2 ^ 32 + y2) * 2 ^ 64 + (y1 * 2 ^ 32 + y0)) =
      x0 * y0 + x1 * y0 * 2 ^ 32 + x0 * y1 * 2 ^ 32 + x2 * y0 * 2 ^ 64 + x0 * y2 * 2 ^ 64 +
        x1 * y1 * 2 ^ 64 + x3 * y0 * 2 ^ 32 * 2 ^ 64 + x0 * y3 * 2 ^ 32 * 2 ^ 64 +
        x2 * y1 * 2 ^ 32 * 2 ^ 64 + x1 * y2 * 2 ^ 32 * 2 ^ 64 +
        2 ^ 128 * (x2 * y2 + x1 * y3 + x3 * y1 + 2 ^ 32 * (x2 * y3 + x3 * y2) +
          2 ^ 64 * (x3 * y3)) := by ring
  rw [key]
  show _ % _ = _ % _
  rw [Nat.add_mul_mod_self_left]

/-! ### shifts -/

theorem bv_getLsbD (a : PU128) (i : Nat) :
    (bv a).getLsbD i = if i < 64 then a.lo.getLsbD i else a.hi.getLsbD (i - 64) := by
  rw [bv, BitVec.getLsbD_append]

theorem bv_ext {a : PU128} {x : BitVec 128}
    (h : ∀ i, i < 128 → (if i < 64 then a.lo.getLsbD i else a.hi.getLsbD (i - 64)) = x.getLsbD i) :
    bv a = x := by
  apply BitVec.eq_of_getLsbD_eq
  intro i hi
  rw [bv_getLsbD]
  exact h i hi

theorem shrNat_eq (a : PU128) (s : Nat) (hs : s < 128) :
    ∃ r, shrNat a s = some r ∧ bv r = bv a >>> s := by
  unfold shrNat
  by_cases h0 : s = 0
  · subst h0; exact ⟨a, by simp, by simp⟩
  rw [if_neg h0]
  by_cases h1 : s < 64
  · rw [if_pos h1]
    refine ⟨_, rfl, bv_ext fun i hi => ?_⟩
    rw [BitVec.getLsbD_ushiftRight, bv_getLsbD]
    simp only [create, BitVec.getLsbD_or, BitVec.getLsbD_ushiftRight, BitVec.getLsbD_shiftLeft]
    by_cases hi64 : i < 64
    · rw [if_pos hi64]
      by_cases hsi : s + i < 64
      · rw [if_pos hsi]
        have : i < 64 - s := by omega
        simp [hi64, this]
      · rw [if_neg hsi]
        have h2 : ¬ i < 64 - s := by omega
        have h3 : i - (64 - s) = s + i - 64 := by omega
        have h4 : a.lo.getLsbD (s + i) = false := BitVec.getLsbD_of_ge _ _ (by omega)
        simp [hi64, h2, h3, h4]
    · rw [if_neg hi64, if_neg (by omega : ¬ s + i < 64)]
      congr 1; omega
  · rw [if_neg h1, if_pos (by omega)]
    refine ⟨_, rfl, bv_ext fun i hi => ?_⟩
    rw [BitVec.getLsbD_ushiftRight, bv_getLsbD, if_neg (by omega : ¬ s + i < 64)]
    simp only [create, BitVec.getLsbD_ushiftRight]
    by_cases hi64 : i < 64
    · rw [if_pos hi64]; congr 1; omega
    · rw [if_neg hi64]
      rw [BitVec.getLsbD_of_ge a.hi _ (by omega)]
      simp

theorem shlNat_eq (a : PU128) (s : Nat) (hs : s < 128) :
    ∃ r, shlNat a s = some r ∧ bv r = bv a <<< s := by
  unfold shlNat
  by_cases h0 : s = 0
  · subst h0; exact ⟨a, by simp, by simp⟩
  rw [if_neg h0]
  by_cases h1 : s < 64
  · rw [if_pos h1]
    refine ⟨_, rfl, bv_ext fun i hi => ?_⟩
    rw [BitVec.getLsbD_shiftLeft, bv_getLsbD]
    simp only [create, BitVec.getLsbD_or, BitVec.getLsbD_ushiftRight, BitVec.getLsbD_shiftLeft]
    by_cases hi64 : i < 64
    · rw [if_pos hi64]
      have : i - s < 64 := by omega
      simp [hi64, hi, this]
    · rw [if_neg hi64]
      by_cases hsi : i - s < 64
      · have h2 : i - 64 < s := by omega
        have h3 : ¬ i < s := by omega
        have h4 : 64 - s + (i - 64) = i - s := by omega
        simp [h2, h3, h4, hi, hsi]
      · have h2 : ¬ i - 64 < s := by omega
        have h3 : ¬ i < s := by omega
        have h4 : i - 64 - s = i - s - 64 := by omega
        have h5 : a.lo.getLsbD (64 - s + (i - 64)) = false := BitVec.getLsbD_of_ge _ _ (by omega)
        have h6 : i - 64 < 64 := by omega
        simp [h2, h3, h4, hi, hsi, h5, h6]
  · rw [if_neg h1, if_pos (by omega)]
    refine ⟨_, rfl, bv_ext fun i hi => ?_⟩
    rw [BitVec.getLsbD_shiftLeft, bv_getLsbD]
    simp only [create, BitVec.getLsbD_shiftLeft]
    by_cases hi64 : i < 64
    · have : i < s := by omega
      simp [hi64, this]
    · rw [if_neg hi64]
      by_cases hsi : i < s
      · have h2 : i - 64 < s - 64 := by omega
        simp [hsi, h2]
      · have h2 : ¬ i - 64 < s - 64 := by omega
        have h4 : i - 64 - (s - 64) = i - s := by omega
        have h5 : i - s < 64 := by omega
        have h6 : i - 64 < 64 := by omega
        simp [h2, hsi, h4, h5, h6, hi]

/-! ### division -/

theorem shl1_eq (a : PU128) : shlNat a 1 = some (shl1 a) := rfl

theorem val_shl1 (a : PU128) (h : val a < 2 ^ 127) : val (shl1 a) = 2 * val a := by
  obtain ⟨r, h1, h2⟩ := shlNat_eq a 1 (by omega)
  rw [shl1_eq] at h1
  obtain rfl := Option.some.inj h1
  have := congrArg BitVec.toNat h2
  rw [bv_toNat, BitVec.toNat_shiftLeft, bv_toNat, Nat.shiftLeft_eq] at this
  rw [this]; omega

theorem val_or_bit (a : PU128) (b : Bool) (h : val a % 2 = 0) :
    val ⟨a.lo ||| (if b then 1 else 0), a.hi⟩ = val a + b.toNat := by
  cases b
  · simp [val]
  · simp only [if_true, val, BitVec.toNat_or, Bool.toNat_true]
    have h2 : a.lo.toNat % 2 = 0 := by simp only [val] at h; omega
    have : a.lo.toNat ||| (1 : BitVec 64).toNat = a.lo.toNat + 1 := by
      have h3 : a.lo.toNat = 2 ^ 1 * (a.lo.toNat / 2) := by omega
      have := Nat.two_pow_add_eq_or_of_lt (i := 1) (b := 1) (by omega) (a.lo.toNat / 2)
      rw [h3]
      exact this.symm
    rw [this]; omega

theorem testBit_iff (x : BitVec 64) (j : Nat) (hj : j < 64) :
    (x &&& (1#64 <<< j) > 0) ↔ x.toNat / 2 ^ j % 2 = 1 := by
  have h1 : (1#64 <<< j).toNat = 2 ^ j := by
    rw [BitVec.toNat_shiftLeft, Nat.shiftLeft_eq]
    have : 2 ^ j < 2 ^ 64 := Nat.pow_lt_pow_right (by omega) hj
    rw [show (1#64).toNat = 1 from rfl, Nat.one_mul, Nat.mod_eq_of_lt this]
  rw [gt_iff_lt, BitVec.lt_def, BitVec.toNat_and, h1, Nat.and_two_pow, Nat.testBit_eq_decide_div_mod_eq]
  by_cases h : x.toNat / 2 ^ j % 2 = 1 <;> simp [h]

theorem or_two_pow (x : BitVec 64) (j : Nat) (hj : j < 64) (Q : Nat)
    (h : x.toNat = 2 ^ (j + 1) * Q) : (x ||| (1#64 <<< j)).toNat = 2 ^ (j + 1) * Q + 2 ^ j := by
  have h1 : (1#64 <<< j).toNat = 2 ^ j := by
    rw [BitVec.toNat_shiftLeft, Nat.shiftLeft_eq]
    have : 2 ^ j < 2 ^ 64 := Nat.pow_lt_pow_right (by omega) hj
    rw [show (1#64).toNat = 1 from rfl, Nat.one_mul, Nat.mod_eq_of_lt this]
  rw [BitVec.toNat_or, h1, h]
  exact (Nat.two_pow_add_eq_or_of_lt (Nat.pow_lt_pow_right (by omega) (by omega)) Q).symm

/-- invariant of the division loops: `idx` bits remain -/
def DivInv (a other : PU128) (idx : Nat) (qr : PU128 × PU128) : Prop :=
  ∃ Q, val qr.1 = 2 ^ idx * Q ∧ Q * val other + val qr.2 = val a / 2 ^ idx ∧
    val qr.2 < val other

theorem div_step_arith (A O idx Q R bit R' : Nat) (hbit : bit = A / 2 ^ idx % 2)
    (h : Q * O + R = A / 2 ^ (idx + 1)) (hR : R < O) (hR' : R' = 2 * R + bit) :
    (O ≤ R' → (2 * Q + 1) * O + (R' - O) = A / 2 ^ idx ∧ R' - O < O) ∧
    (¬ O ≤ R' → (2 * Q) * O + R' = A / 2 ^ idx ∧ R' < O) := by
  have h1 : A / 2 ^ (idx + 1) = A / 2 ^ idx / 2 := by
    rw [pow_succ, Nat.div_div_eq_div_mul]
  rw [h1] at h
  generalize A / 2 ^ idx = B at *
  have hB : B = 2 * (Q * O) + 2 * R + bit := by omega
  have hlt : bit < 2 := by omega
  constructor
  · intro hle
    refine ⟨?_, by omega⟩
    rw [hB]
    have : (2 * Q + 1) * O = 2 * (Q * O) + O := by ring
    rw [this]; omega
  · intro hle
    refine ⟨?_, by omega⟩
    rw [hB]
    have : 2 * Q * O = 2 * (Q * O) := by ring
    rw [this]; omega

theorem rem_lt (A O idx Q R : Nat) (hA : A < 2 ^ 128) (h : Q * O + R = A / 2 ^ (idx + 1)) :
    R < 2 ^ 127 := by
  have h1 : A / 2 ^ (idx + 1) ≤ A / 2 := by
    apply Nat.div_le_div_left _ (by omega)
    calc 2 = 2 ^ 1 := by norm_num
      _ ≤ 2 ^ (idx + 1) := Nat.pow_le_pow_right (by omega) (by omega)
  have : R ≤ A / 2 ^ (idx + 1) := by rw [← h]; exact Nat.le_add_left _ _
  omega

theorem hi_bit (a : PU128) (j : Nat) :
    val a / 2 ^ (64 + j) % 2 = a.hi.toNat / 2 ^ j % 2 := by
  rw [pow_add, ← Nat.div_div_eq_div_mul]
  congr 2
  have := a.lo.isLt
  simp only [val]; omega

theorem lo_bit (a : PU128) (j : Nat) (hj : j < 64) :
    val a / 2 ^ j % 2 = a.lo.toNat / 2 ^ j % 2 := by
  simp only [val]
  have : (2:Nat) ^ 64 = 2 ^ j * (2 * 2 ^ (63 - j)) := by
    rw [← pow_succ', ← pow_add]; congr 1; omega
  rw [this, show a.hi.toNat * (2 ^ j * (2 * 2 ^ (63 - j))) =
    2 ^ j * (2 * (a.hi.toNat * 2 ^ (63 - j))) by ring, Nat.mul_add_div (by positivity)]
  omega

theorem divStepHi_inv (a other : PU128) (j : Nat) (hj : j < 64) (qr : PU128 × PU128)
    (h : DivInv a other (64 + j + 1) qr) :
    DivInv a other (64 + j) (divStepHi a other qr j) := by
  obtain ⟨q, r⟩ := qr
  obtain ⟨Q, h1, h2, h3⟩ := h
  simp only at h1 h2 h3
  have hr := rem_lt _ _ _ _ _ (val_lt a) h2
  have hs := val_shl1 r hr
  set b : Bool := decide (a.hi &&& (1#64 <<< j) > 0) with hb
  have hbv : b.toNat = val a / 2 ^ (64 + j) % 2 := by
    rw [hi_bit]
    have := testBit_iff a.hi j hj
    by_cases hc : a.hi &&& (1#64 <<< j) > 0
    · rw [hb, decide_eq_true hc, this.1 hc]; rfl
    · rw [hb, decide_eq_false hc]
      have := mt this.2 hc
      simp only [Bool.toNat_false]; omega
  have hor := val_or_bit (shl1 r) b (by omega)
  have hstep : divStepHi a other (q, r) j =
      if ge ⟨(shl1 r).lo ||| (if b then 1 else 0), (shl1 r).hi⟩ other then
        (⟨q.lo, q.hi ||| (1#64 <<< j)⟩,
          sub ⟨(shl1 r).lo ||| (if b then 1 else 0), (shl1 r).hi⟩ other)
      else (q, ⟨(shl1 r).lo ||| (if b then 1 else 0), (shl1 r).hi⟩) := by
    simp only [divStepHi, hb, decide_eq_true_eq]
  rw [hstep]
  generalize (⟨(shl1 r).lo ||| (if b then 1 else 0), (shl1 r).hi⟩ : PU128) = r' at *
  have hr' : val r' = 2 * val r + b.toNat := by rw [hor, hs]
  obtain ⟨A1, A2⟩ := div_step_arith _ _ _ _ _ _ _ hbv h2 h3 hr'
  by_cases hge : ge r' other = true
  · rw [if_pos hge]
    have hle := (ge_iff _ _).1 hge
    obtain ⟨B1, B2⟩ := A1 hle
    have hsub : val (sub r' other) = val r' - val other := by
      rw [val_sub]
      have := val_lt r'; have := val_lt other
      omega
    refine ⟨2 * Q + 1, ?_, by simp only; rw [hsub]; exact B1, by simp only; rw [hsub]; exact B2⟩
    have hlo : q.lo.toNat = 0 ∧ q.hi.toNat = 2 ^ (j + 1) * Q := by
      have := q.lo.isLt
      have e : 2 ^ (64 + j + 1) * Q = 2 ^ 64 * (2 ^ (j + 1) * Q) := by ring
      simp only [val, e] at h1
      omega
    have := or_two_pow q.hi j hj Q hlo.2
    simp only [val, this, hlo.1]
    ring
  · rw [if_neg hge]
    have hle := mt (ge_iff _ _).2 hge
    obtain ⟨B1, B2⟩ := A2 hle
    refine ⟨2 * Q, ?_, B1, B2⟩
    simp only [h1]; ring

theorem divStepLo_inv (a other : PU128) (j : Nat) (hj : j < 64) (qr : PU128 × PU128)
    (h : DivInv a other (j + 1) qr) :
    DivInv a other j (divStepLo a other qr j) := by
  obtain ⟨q, r⟩ := qr
  obtain ⟨Q, h1, h2, h3⟩ := h
  simp only at h1 h2 h3
  have hr := rem_lt _ _ _ _ _ (val_lt a) h2
  have hs := val_shl1 r hr
  set b : Bool := decide (a.lo &&& (1#64 <<< j) > 0) with hb
  have hbv : b.toNat = val a / 2 ^ j % 2 := by
    rw [lo_bit _ _ hj]
    have := testBit_iff a.lo j hj
    by_cases hc : a.lo &&& (1#64 <<< j) > 0
    · rw [hb, decide_eq_true hc, this.1 hc]; rfl
    · rw [hb, decide_eq_false hc]
      have := mt this.2 hc
      simp only [Bool.toNat_false]; omega
  have hor := val_or_bit (shl1 r) b (by omega)
  have hstep : divStepLo a other (q, r) j =
      if ge ⟨(shl1 r).lo ||| (if b then 1 else 0), (shl1 r).hi⟩ other then
        (⟨q.lo ||| (1#64 <<< j), q.hi⟩,
          sub ⟨(shl1 r).lo ||| (if b then 1 else 0), (shl1 r).hi⟩ other)
      else (q, ⟨(shl1 r).lo ||| (if b then 1 else 0), (shl1 r).hi⟩) := by
    simp only [divStepLo, hb, decide_eq_true_eq]
  rw [hstep]
  generalize (⟨(shl1 r).lo ||| (if b then 1 else 0), (shl1 r).hi⟩ : PU128) = r' at *
  have hr' : val r' = 2 * val r + b.toNat := by rw [hor, hs]
  obtain ⟨A1, A2⟩ := div_step_arith _ _ _ _ _ _ _ hbv h2 h3 hr'
  by_cases hge : ge r' other = true
  · rw [if_pos hge]
    have hle := (ge_iff _ _).1 hge
    obtain ⟨B1, B2⟩ := A1 hle
    have hsub : val (sub r' other) = val r' - val other := by
      rw [val_sub]
      have := val_lt r'; have := val_lt other
      omega
    refine ⟨2 * Q + 1, ?_, by simp only; rw [hsub]; exact B1, by simp only; rw [hsub]; exact B2⟩
    -- the low word of the quotient is a multiple of 2^(j+1)
    have hdvd : 2 ^ (j + 1) ∣ q.lo.toNat := by
      have e : (2:Nat) ^ 64 = 2 ^ (j + 1) * 2 ^ (63 - j) := by rw [← pow_add]; congr 1; omega
      have h4 : 2 ^ (j + 1) ∣ q.hi.toNat * 2 ^ 64 + q.lo.toNat := by
        rw [show q.hi.toNat * 2 ^ 64 + q.lo.toNat = val q from rfl, h1]; exact Dvd.intro _ rfl
      refine (Nat.dvd_add_right ?_).1 h4
      rw [e]
      exact ⟨q.hi.toNat * 2 ^ (63 - j), by ring⟩
    obtain ⟨Q', hQ'⟩ := hdvd
    have := or_two_pow q.lo j hj Q' hQ'
    simp only [val, this]
    have h5 : val q = q.hi.toNat * 2 ^ 64 + 2 ^ (j + 1) * Q' := by rw [val, hQ']
    rw [← Nat.add_assoc, ← h5, h1]; ring
  · rw [if_neg hge]
    have hle := mt (ge_iff _ _).2 hge
    obtain ⟨B1, B2⟩ := A2 hle
    refine ⟨2 * Q, ?_, B1, B2⟩
    simp only [h1]; ring

theorem foldl_range_reverse_inv {σ : Type} (f : σ → Nat → σ) (P : Nat → σ → Prop) (n : Nat)
    (hf : ∀ j, j < n → ∀ s, P (j + 1) s → P j (f s j)) (s : σ) (h : P n s) :
    P 0 ((List.range n).reverse.foldl f s) := by
  induction n generalizing s with
  | zero => exact h
  | succ n ih =>
    rw [List.range_succ, List.reverse_append]
    simp only [List.reverse_cons, List.reverse_nil, List.nil_append, List.cons_append,
      List.foldl_cons]
    exact ih (fun j hj s hs => hf j (by omega) s hs) _ (hf n (by omega) s h)

theorem divMod_spec (a other : PU128) (h : 0 < val other) :
    val (divMod a other).1 * val other + val (divMod a other).2 = val a ∧
    val (divMod a other).2 < val other := by
  have h0 : DivInv a other (64 + 64) (⟨0, 0⟩, ⟨0, 0⟩) := by
    refine ⟨0, by rw [Nat.mul_zero]; rfl, ?_, ?_⟩
    · rw [show val (⟨0, 0⟩ : PU128) = 0 from rfl, Nat.div_eq_of_lt (val_lt a)]; simp
    · rw [show val (⟨0, 0⟩ : PU128) = 0 from rfl]; exact h
  have h1 := foldl_range_reverse_inv (divStepHi a other) (fun j s => DivInv a other (64 + j) s)
    64 (fun j hj s hs => divStepHi_inv a other j hj s hs) _ h0
  have h2 := foldl_range_reverse_inv (divStepLo a other) (fun j s => DivInv a other j s)
    64 (fun j hj s hs => divStepLo_inv a other j hj s hs) _ h1
  obtain ⟨Q, e1, e2, e3⟩ := h2
  simp only [pow_zero, one_mul, Nat.div_one] at e1 e2
  refine ⟨?_, e3⟩
  rw [← e1] at e2
  exact e2

end Trng.PU128
