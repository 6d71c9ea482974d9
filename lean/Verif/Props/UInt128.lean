import Verif.Proofs.UInt128
/-
C43: the portable 128-bit integers refine `BitVec 128` operation by operation.
`PU128.bv a` is the 128-bit integer whose high and low words are the two members of `a`.
-/
namespace Trng
open PU128

theorem C43_add (a b : PU128) : bv (add a b) = bv a + bv b := by
  rw [bv_eq_iff, val_add, BitVec.toNat_add, bv_toNat, bv_toNat]

theorem C43_sub (a b : PU128) : bv (sub a b) = bv a - bv b := by
  rw [bv_eq_iff, val_sub, BitVec.toNat_sub, bv_toNat, bv_toNat, Nat.add_comm]

theorem C43_mul (a b : PU128) : bv (mul a b) = bv a * bv b := by
  rw [bv_eq_iff, val_mul, BitVec.toNat_mul, bv_toNat, bv_toNat]

theorem C43_div (a b : PU128) (hb : bv b ≠ 0) : bv (div a b) = bv a / bv b := by
  have hpos : 0 < val b := by
    rw [Nat.pos_iff_ne_zero, ← bv_toNat]
    exact fun h => hb (BitVec.eq_of_toNat_eq (by simpa using h))
  obtain ⟨h1, h2⟩ := divMod_spec a b hpos
  rw [bv_eq_iff, BitVec.toNat_udiv, bv_toNat, bv_toNat]
  show val (divMod a b).1 = _
  rw [← h1, Nat.mul_comm, Nat.mul_add_div hpos, Nat.div_eq_of_lt h2, Nat.add_zero]

theorem C43_mod (a b : PU128) (hb : bv b ≠ 0) : bv (mod a b) = bv a % bv b := by
  have hpos : 0 < val b := by
    rw [Nat.pos_iff_ne_zero, ← bv_toNat]
    exact fun h => hb (BitVec.eq_of_toNat_eq (by simpa using h))
  obtain ⟨h1, h2⟩ := divMod_spec a b hpos
  rw [bv_eq_iff, BitVec.toNat_umod, bv_toNat, bv_toNat]
  show val (divMod a b).2 = _
  rw [← h1, Nat.mul_comm, Nat.mul_add_mod, Nat.mod_eq_of_lt h2]

theorem C43_inc (a : PU128) : bv (inc a) = bv a + 1 := by
  rw [bv_eq_iff, val_inc, BitVec.toNat_add, bv_toNat]; rfl

theorem C43_dec (a : PU128) : bv (dec a) = bv a - 1 := by
  rw [bv_eq_iff, val_dec, BitVec.toNat_sub, bv_toNat, Nat.add_comm]; rfl

theorem C43_not (a : PU128) : bv (not a) = ~~~ bv a := by
  apply bv_ext
  intro i hi
  rw [BitVec.getLsbD_not, bv_getLsbD]
  simp only [PU128.not, create, BitVec.getLsbD_not]
  by_cases h : i < 64
  · simp [h, hi]
  · have : i - 64 < 64 := by omega
    simp [h, hi, this]

theorem C43_neg (a : PU128) : bv (neg a) = - bv a := by
  have h : create (~~~a.hi) (~~~a.lo) = PU128.not a := rfl
  rw [neg, h, C43_inc, C43_not, BitVec.neg_eq_not_add]
  rfl

theorem C43_and (a b : PU128) : bv (PU128.and a b) = bv a &&& bv b := by
  apply bv_ext
  intro i hi
  rw [BitVec.getLsbD_and, bv_getLsbD, bv_getLsbD]
  simp only [PU128.and, create, BitVec.getLsbD_and]
  split <;> rfl

theorem C43_or (a b : PU128) : bv (PU128.or a b) = bv a ||| bv b := by
  apply bv_ext
  intro i hi
  rw [BitVec.getLsbD_or, bv_getLsbD, bv_getLsbD]
  simp only [PU128.or, create, BitVec.getLsbD_or]
  split <;> rfl

theorem C43_xor (a b : PU128) : bv (PU128.xor a b) = bv a ^^^ bv b := by
  apply bv_ext
  intro i hi
  rw [BitVec.getLsbD_xor, bv_getLsbD, bv_getLsbD]
  simp only [PU128.xor, create, BitVec.getLsbD_xor]
  split <;> rfl

theorem C43_compare (a b : PU128) :
    (lt a b = decide (bv a < bv b)) ∧ (le a b = decide (bv a ≤ bv b)) ∧
    (gt a b = decide (bv a > bv b)) ∧ (ge a b = decide (bv a ≥ bv b)) ∧
    (PU128.eq a b = decide (bv a = bv b)) ∧ (PU128.ne a b = decide (bv a ≠ bv b)) := by
  refine ⟨?_, ?_, ?_, ?_, ?_, ?_⟩ <;> rw [Bool.eq_iff_iff, decide_eq_true_iff]
  · rw [lt_iff, BitVec.lt_def, bv_toNat, bv_toNat]
  · rw [le_iff, BitVec.le_def, bv_toNat, bv_toNat]
  · rw [PU128.gt_iff, gt_iff_lt, BitVec.lt_def, bv_toNat, bv_toNat]
  · rw [ge_iff, ge_iff_le, BitVec.le_def, bv_toNat, bv_toNat]
  · rw [eq_iff, BitVec.toNat_eq, bv_toNat, bv_toNat]
  · rw [ne_iff, Ne, Ne, BitVec.toNat_eq, bv_toNat, bv_toNat]

/-- Shift counts strictly between -128 and 128; a negative count shifts in the other
direction. -/
theorem C43_shr (a : PU128) (s : Int) (h : s.natAbs < 128) :
    ∃ r, shr a s = some r ∧
      bv r = if s < 0 then bv a <<< s.natAbs else bv a >>> s.natAbs := by
  unfold shr
  by_cases hs : s < 0
  · rw [if_pos hs, if_pos hs, show (-s).toNat = s.natAbs by omega]
    exact shlNat_eq a _ h
  · rw [if_neg hs, if_neg hs, show s.toNat = s.natAbs by omega]
    exact shrNat_eq a _ h

theorem C43_shl (a : PU128) (s : Int) (h : s.natAbs < 128) :
    ∃ r, shl a s = some r ∧
      bv r = if s < 0 then bv a >>> s.natAbs else bv a <<< s.natAbs := by
  unfold shl
  by_cases hs : s < 0
  · rw [if_pos hs, if_pos hs, show (-s).toNat = s.natAbs by omega]
    exact shrNat_eq a _ h
  · rw [if_neg hs, if_neg hs, show s.toNat = s.natAbs by omega]
    exact shlNat_eq a _ h

/-- Shift counts of 128 or more in absolute value are undefined behaviour. -/
theorem C43_shift_ub (a : PU128) (s : Int) (h : 128 ≤ s.natAbs) :
    shr a s = none ∧ shl a s = none := by
  have h1 : ∀ n, 128 ≤ n → shrNat a n = none := fun n hn => by
    unfold shrNat; rw [if_neg (by omega), if_neg (by omega), if_neg (by omega)]
  have h2 : ∀ n, 128 ≤ n → shlNat a n = none := fun n hn => by
    unfold shlNat; rw [if_neg (by omega), if_neg (by omega), if_neg (by omega)]
  unfold shr shl
  constructor
  · split
    · exact h2 _ (by omega)
    · exact h1 _ (by omega)
  · split
    · exact h1 _ (by omega)
    · exact h2 _ (by omega)

/-- the low word is returned by `lo()` and by the conversion to `uint64_t` -/
theorem C43_lo (a : PU128) : getLo a = (bv a).setWidth 64 ∧ toU64 a = (bv a).setWidth 64 := by
  have : a.lo = (bv a).setWidth 64 := by
    apply BitVec.eq_of_getLsbD_eq
    intro i hi
    rw [BitVec.getLsbD_setWidth, bv_getLsbD]; simp [hi]
  exact ⟨this, this⟩

/-- `hi()` does not return the high word: the full claim about `hi()` fails. -/
theorem C43_hi_wrong : ∃ a : PU128, getHi a ≠ ((bv a) >>> 64).setWidth 64 :=
  ⟨⟨1, 0⟩, by decide⟩

/-- non-vacuity: a division with a divisor above 2^127 and one with a small divisor -/
example : div ⟨0xffffffffffffffff#64, 0xffffffffffffffff#64⟩ ⟨1, 0x8000000000000000#64⟩ =
    ⟨1, 0⟩ := by decide +kernel
example : mod ⟨0x0123456789abcdef#64, 0xfedcba9876543210#64⟩ ⟨10, 0⟩ =
    ⟨5, 0⟩ := by decide +kernel

end Trng
