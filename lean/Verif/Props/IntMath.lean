import Verif.Proofs.ModInverse
import Verif.Proofs.Modulo
import Verif.Proofs.MatMod
/- C19, C20, C23–C25: trng/int_math.hpp.  (C21, C22: Verif/Props/Gauss.lean.)

`IntMath.IsEngineModulus m`: `m` is one of the three moduli of the mrg and yarn engines,
2147483647, 2147462579, 2147461007. -/
namespace Trng
open IntMath

/-! ### C19 -/

/-- `modulo<m,r>(x) = x mod m` for the engines' moduli, for every sum of `r` products of residues
(`r = 1..5`; for `r = 4, 5` for every 64-bit value at all). -/
theorem C19_modulo (m r : Nat) (hm : m = 2147483647 ∨ m = 2147462579 ∨ m = 2147461007)
    (hr : 1 ≤ r ∧ r ≤ 5) (x : BitVec 64) (hx : 4 ≤ r ∨ x.toNat ≤ r * ((m - 1) * (m - 1))) :
    modulo m r x = ((x.toNat % m : Nat) : Int) :=
  modulo_eq hm hr.1 hr.2 x hx

example : modulo 2147462579 1 4611595492316186084#64 = 617718686 := by
  rw [C19_modulo 2147462579 1 (by simp) (by simp) _ (by decide)]; decide
example : (4 ≤ 3 ∨ (4611595492316186084#64).toNat ≤ 3 * ((2147462579 - 1) * (2147462579 - 1))) := by
  decide

/-- The bound on `x` is needed: `modulo<2^31-1,1>` is wrong for `x = 2^64-1` (its intermediate value
does not fit the `uint32_t` variable). -/
theorem C19_modulo_bound_needed :
    modulo 2147483647 1 0xffffffffffffffff#64 ≠
      (((0xffffffffffffffff#64).toNat % 2147483647 : Nat) : Int) := by decide

/-! ### C20 -/

/-- `modulo_inverse(a, m)` for all positive `int32_t` arguments: it returns the inverse in `[0,m)` if
there is one and throws if there is none; no overflow, no infinite loop. -/
theorem C20_modulo_inverse (a m : Int) (ha : 1 ≤ a ∧ a ≤ 2 ^ 31 - 1) (hm : 2 ≤ m ∧ m ≤ 2 ^ 31 - 1) :
    (Int.gcd a m = 1 → ∃ x, moduloInverse a m = .ok x ∧ 0 ≤ x ∧ x < m ∧ a * x % m = 1) ∧
    (Int.gcd a m ≠ 1 → moduloInverse a m = .throws) := by
  obtain ⟨h1, h2⟩ := moduloInverse_spec ha.1 (by omega) hm.1 (by omega)
  refine ⟨fun h => ?_, h2⟩
  obtain ⟨x, hx, h0, hl, d⟩ := h1 h
  refine ⟨x, hx, h0, hl, ?_⟩
  rw [(Int.modEq_iff_dvd.2 d : (1 : Int) ≡ a * x [ZMOD m]).symm, Int.emod_eq_of_lt (by omega) (by omega)]

/-- The argument check. -/
theorem C20_modulo_inverse_invalid (a m : Int) (h : a ≤ 0 ∨ m ≤ 1) : moduloInverse a m = .throws := by
  unfold moduloInverse; rw [if_pos h]

example : moduloInverse 1498809829 2147483647 = .ok 1485307120 := by decide +kernel
example : moduloInverse 6 21 = .throws := by decide
example : moduloInverse 5 21 = .ok 17 := by decide

/-! ### C23 -/

/-- Matrix times vector modulo `m`. -/
theorem C23_matrix_vec_mult {n : Nat} (m : Int) (hm : 0 < m ∧ m ≤ 2 ^ 31 - 1)
    (a : Fin n → Fin n → Int) (b : Fin n → Int) (ha : ∀ i j, 0 ≤ a i j ∧ a i j ≤ 2 ^ 31 - 1)
    (hb : ∀ i, 0 ≤ b i ∧ b i ≤ 2 ^ 31 - 1) (j : Fin n) :
    matrixVecMult a b m j = (∑ k, a j k * b k) % m ∧
    0 ≤ matrixVecMult a b m j ∧ matrixVecMult a b m j < m := by
  rw [matrixVecMult_eq hm.1 (by omega) a b (fun i j => (ha i j).1) (fun i => (hb i).1)]
  exact ⟨rfl, Int.emod_nonneg _ (by omega), Int.emod_lt_of_pos _ hm.1⟩

/-- Matrix times matrix modulo `m`. -/
theorem C23_matrix_mult {n : Nat} (m : Int) (hm : 0 < m ∧ m ≤ 2 ^ 31 - 1)
    (a b : Fin n → Fin n → Int) (ha : ∀ i j, 0 ≤ a i j ∧ a i j ≤ 2 ^ 31 - 1)
    (hb : ∀ i j, 0 ≤ b i j ∧ b i j ≤ 2 ^ 31 - 1) (j i : Fin n) :
    matrixMult a b m j i = (∑ k, a j k * b k i) % m ∧
    0 ≤ matrixMult a b m j i ∧ matrixMult a b m j i < m := by
  rw [matrixMult_eq hm.1 (by omega) a b (fun i j => (ha i j).1) (fun i j => (hb i j).1)]
  exact ⟨rfl, Int.emod_nonneg _ (by omega), Int.emod_lt_of_pos _ hm.1⟩

example : matrixMult (n := 2) (fun i j => 2147483646 - i - j) (fun i j => 3 + i - 2 * j) 2147483647 1 0
    = 2147483629 := by decide

/-! ### C24 -/

/-- `log2_floor(x)` is the exponent of the largest power of two not above `x`. -/
theorem C24_log2_floor (x : Nat) (hx : 1 ≤ x) : 2 ^ log2Floor x ≤ x ∧ x < 2 ^ (log2Floor x + 1) := by
  rw [log2Floor_eq]
  exact ⟨Nat.pow_log_le_self 2 (by omega), Nat.lt_pow_succ_log_self (by omega) x⟩

/-- `log2_ceil(x)` is the smallest `k` with `x ≤ 2^k`. -/
theorem C24_log2_ceil (x : Nat) (hx : 1 ≤ x) (k : Nat) : x ≤ 2 ^ k ↔ log2Ceil x ≤ k := by
  rw [log2Ceil_eq hx, Nat.clog_le_iff_le_pow (by omega)]

/-- `ceil2(x)` is the smallest power of two not below `x`, for unsigned types of `w` bits and
`1 ≤ x ≤ 2^(w-1)`. -/
theorem C24_ceil2 (w x : Nat) (hw : 1 ≤ w) (hx : 1 ≤ x) (hx' : x ≤ 2 ^ (w - 1)) :
    (∃ k, ceil2 w x = 2 ^ k) ∧ x ≤ ceil2 w x ∧ ∀ k, x ≤ 2 ^ k → ceil2 w x ≤ 2 ^ k := by
  have hc : Nat.clog 2 x ≤ w - 1 := (Nat.clog_le_iff_le_pow (by omega)).2 hx'
  have hlt : 2 ^ (w - 1) < 2 ^ w := Nat.pow_lt_pow_right (by omega) (by omega)
  have e : ceil2 w x = 2 ^ Nat.clog 2 x := by
    rw [ceil2_eq hw hx (by omega), Nat.mod_eq_of_lt]
    exact Nat.pow_lt_pow_right (by omega) (by omega)
  rw [e]
  exact ⟨⟨_, rfl⟩, Nat.le_pow_clog (by omega) x, fun k hk => Nat.pow_le_pow_right (by omega)
    ((Nat.clog_le_iff_le_pow (by omega)).2 hk)⟩

/-- Beyond that the result wraps to zero. -/
theorem C24_ceil2_wraps (w x : Nat) (hw : 1 ≤ w) (hx : 2 ^ (w - 1) < x) (hx' : x < 2 ^ w) (h1 : 1 < x) :
    ceil2 w x = 0 := by
  have hc : Nat.clog 2 x = w := by
    apply le_antisymm
    · exact (Nat.clog_le_iff_le_pow (by omega)).2 hx'.le
    · by_contra hc
      have : x ≤ 2 ^ (w - 1) := (Nat.clog_le_iff_le_pow (by omega)).1 (by omega)
      omega
  rw [ceil2_eq hw (by omega) hx', hc, Nat.mod_self]

/-- `mask(x)` has exactly the bits set that are not above the most significant bit of `x`; for every
value of the type. -/
theorem C24_mask (w x : Nat) (hw : 1 ≤ w) (hx : x < 2 ^ w) (i : Nat) :
    (mask w x).testBit i = true ↔ ∃ j, i ≤ j ∧ x.testBit j = true := by
  rw [mask_eq hw hx, Nat.testBit_two_pow_sub_one, decide_eq_true_iff]
  constructor
  · intro h
    have h0 : x ≠ 0 := by rintro rfl; simp at h
    refine ⟨Nat.size x - 1, by omega, ?_⟩
    have hs := Nat.lt_size_self x
    have hl : ¬ Nat.size x ≤ Nat.size x - 1 := by omega
    rw [Nat.size_le] at hl
    have hp : 2 ^ Nat.size x = 2 * 2 ^ (Nat.size x - 1) := by
      rw [← pow_succ', Nat.sub_add_cancel (by omega)]
    rw [Nat.testBit_eq_decide_div_mod_eq]
    have : x / 2 ^ (Nat.size x - 1) = 1 := by
      apply Nat.div_eq_of_lt_le <;> omega
    rw [this]; rfl
  · rintro ⟨j, hij, hj⟩
    by_contra hc
    have : x < 2 ^ j := lt_of_lt_of_le (Nat.lt_size_self x) (Nat.pow_le_pow_right (by omega) (by omega))
    rw [Nat.testBit_lt_two_pow this] at hj
    cases hj

example : log2Floor 9689 = 13 ∧ log2Ceil 9689 = 14 ∧ ceil2 32 9689 = 16384 ∧ mask 32 9689 = 16383 ∧
    ceil2 32 8192 = 8192 ∧ mask 32 8192 = 16383 := by
  rw [log2Floor_eq, log2Ceil_eq (by omega), ceil2_eq (by omega) (by omega) (by omega),
    ceil2_eq (by omega) (by omega) (by omega), mask_eq (by omega) (by omega),
    mask_eq (by omega) (by omega)]
  decide +kernel

/-! ### C25 -/

/-- `power<m,b>()(n) = b^n mod m` for every non-negative `int32_t`; both table accesses are in
bounds. -/
theorem C25_power (m b : Nat) (hm : m = 2147483647 ∨ m = 2147462579 ∨ m = 2147461007) (hb : b < m)
    (n : BitVec 32) (hn : 0 ≤ n.toInt) :
    powerApply m b n = some ((b ^ n.toNat % m : Nat) : Int) := by
  refine powerApply_eq hm hb n ?_
  rw [BitVec.toInt_eq_toNat_cond] at hn
  split at hn <;> omega

/-- A negative argument (see C31 for a way to get one) is an access outside the table. -/
theorem C25_power_negative (m b : Nat) (n : BitVec 32) (hn : n.toInt < 0) : powerApply m b n = none := by
  have : (n.sshiftRight 16).toInt < 0 := by
    rw [BitVec.toInt_sshiftRight, Int.shiftRight_eq_div_pow]
    exact Int.ediv_neg_of_neg_of_pos hn (by norm_num)
  unfold powerApply bPower1
  rw [if_neg (by omega)]
  rfl

example : (0 : Int) ≤ (0x7ffffffe#32).toInt ∧ (-5#32).toInt < 0 := by decide

end Trng
