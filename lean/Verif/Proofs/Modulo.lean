import Verif.Model.IntMath
import Mathlib.Data.Nat.Log
import Mathlib.Data.Nat.Bitwise
import Mathlib.Data.Nat.Size
import Mathlib.Tactic.Ring
import Mathlib.Tactic.Linarith
import Mathlib.Tactic.NormNum
import Mathlib.Tactic.IntervalCases

/-! Helper lemmas for the powers of two and `modulo` of int_math (C19, C24). -/
namespace Trng.IntMath

theorem log2FloorF_eq : ∀ (fuel x : Nat), x ≤ fuel → log2FloorF fuel x = Nat.log 2 x
  | 0, x, h => by
    have : x = 0 := by omega
    subst this; simp [log2FloorF]
  | fuel + 1, x, h => by
    unfold log2FloorF
    by_cases hx : x ≤ 1
    · rw [if_pos hx, Nat.log_of_lt (by omega)]
    · rw [if_neg hx, log2FloorF_eq fuel (x / 2) (by omega), Nat.add_comm]
      exact (Nat.log_of_one_lt_of_le (by omega) (by omega)).symm

theorem log2Floor_eq (x : Nat) : log2Floor x = Nat.log 2 x := log2FloorF_eq x x le_rfl

theorem log2Ceil_eq {x : Nat} (hx : 1 ≤ x) : log2Ceil x = Nat.clog 2 x := by
  unfold log2Ceil pow2
  rw [log2Floor_eq, Nat.one_shiftLeft]
  have h1 : 2 ^ Nat.log 2 x ≤ x := Nat.pow_log_le_self 2 (by omega)
  have h2 : x < 2 ^ (Nat.log 2 x + 1) := Nat.lt_pow_succ_log_self (by omega) x
  split
  · rename_i h
    apply le_antisymm
    · by_contra hc
      have h3 : Nat.clog 2 x ≤ Nat.log 2 x := by omega
      have := (Nat.clog_le_iff_le_pow (b := 2) (by omega)).mp h3
      omega
    · exact (Nat.clog_le_iff_le_pow (by omega)).mpr h2.le
  · rename_i h
    have h3 : x = 2 ^ Nat.log 2 x := by omega
    conv_rhs => rw [h3]
    rw [Nat.clog_pow _ _ (by omega)]

theorem ceil2F_zero (w fuel : Nat) : ceil2F w fuel 0 = 0 := by
  cases fuel <;> simp [ceil2F]

theorem ceil2F_eq {w : Nat} (hw : 1 ≤ w) : ∀ (fuel x : Nat), x ≤ fuel → 1 ≤ x → x < 2 ^ w →
    ceil2F w fuel x = 2 ^ Nat.clog 2 x % 2 ^ w
  | 0, x, h, h1, _ => by omega
  | fuel + 1, x, h, h1, hlt => by
    unfold ceil2F
    by_cases hx : x ≤ 1
    · have : x = 1 := by omega
      subst this
      rw [if_pos le_rfl]
      simp [Nat.mod_eq_of_lt hlt]
    · rw [if_neg hx]
      have hc : Nat.clog 2 x = Nat.clog 2 ((x + 1) / 2) + 1 := by
        rw [Nat.clog_of_one_lt (by omega) (by omega)]
        rfl
      by_cases he : x + 1 < 2 ^ w
      · rw [Nat.mod_eq_of_lt he, ceil2F_eq hw fuel ((x + 1) / 2) (by omega) (by omega) (by omega),
          hc, pow_succ, mul_comm 2, Nat.mod_mul_mod]
      · have he' : x + 1 = 2 ^ w := by omega
        have : Nat.clog 2 x = w := by
          apply le_antisymm
          · exact (Nat.clog_le_iff_le_pow (by omega)).mpr hlt.le
          · by_contra hcc
            have h3 : Nat.clog 2 x ≤ w - 1 := by omega
            have h4 := (Nat.clog_le_iff_le_pow (b := 2) (by omega)).mp h3
            have h5 : 2 ^ w = 2 * 2 ^ (w - 1) := by
              rw [← pow_succ']; congr 1; omega
            omega
        rw [he', Nat.mod_self, Nat.zero_div, ceil2F_zero, this, Nat.mod_self, Nat.mul_zero, Nat.zero_mod]

theorem ceil2_eq {w x : Nat} (hw : 1 ≤ w) (hx : 1 ≤ x) (hlt : x < 2 ^ w) :
    ceil2 w x = 2 ^ Nat.clog 2 x % 2 ^ w := ceil2F_eq hw x x le_rfl hx hlt

theorem mask_eq {w x : Nat} (hw : 1 ≤ w) (hlt : x < 2 ^ w) : mask w x = 2 ^ Nat.size x - 1 := by
  have hsz : Nat.size x ≤ w := Nat.size_le.mpr hlt
  have hpos : 0 < 2 ^ w := by positivity
  unfold mask
  split
  · rename_i h
    have : Nat.size x = w := by
      apply le_antisymm hsz
      by_contra hc
      have := Nat.size_le.mp (show Nat.size x ≤ w - 1 by omega)
      have h5 : 2 ^ w = 2 * 2 ^ (w - 1) := by
        rw [← pow_succ']; congr 1; omega
      have : 0 < 2 ^ (w - 1) := by positivity
      omega
    rw [this, ← h]
  · rename_i h
    have h1 : x + 1 < 2 ^ w := by omega
    have hcl : Nat.clog 2 (x + 1) = Nat.size x := by
      apply le_antisymm
      · exact (Nat.clog_le_iff_le_pow (by omega)).mpr (Nat.lt_size_self x)
      · exact Nat.size_le.mpr ((Nat.clog_le_iff_le_pow (b := 2) (by omega)).mp le_rfl)
    rw [Nat.mod_eq_of_lt h1, ceil2_eq hw (by omega) h1, hcl]
    rcases hsz.lt_or_eq with hlt' | heq
    · have : 2 ^ Nat.size x < 2 ^ w := Nat.pow_lt_pow_right (by omega) hlt'
      have hp : 0 < 2 ^ Nat.size x := by positivity
      rw [Nat.mod_eq_of_lt this, show 2 ^ Nat.size x + (2 ^ w - 1) = (2 ^ Nat.size x - 1) + 2 ^ w by omega,
        Nat.add_mod_right, Nat.mod_eq_of_lt (by omega)]
    · rw [heq, Nat.mod_self, Nat.zero_add, Nat.mod_eq_of_lt (by omega)]

/-! ### modulo -/

theorem condSub_mod {c m : Nat} {y : BitVec 64} (hc : c * m < 2 ^ 64) :
    (condSub c m y).toNat % m = y.toNat % m := by
  unfold condSub
  split
  · rename_i h
    have h' : c * m ≤ y.toNat := by
      have := BitVec.le_def.mp h
      rwa [BitVec.toNat_ofNat, Nat.mod_eq_of_lt hc] at this
    rw [BitVec.toNat_sub_of_le h, BitVec.toNat_ofNat, Nat.mod_eq_of_lt hc]
    conv_rhs => rw [← Nat.sub_add_cancel h', Nat.add_mul_mod_self_right]
  · rfl

theorem condSub_lt {c m : Nat} {y : BitVec 64} (hc : c * m < 2 ^ 64) (hy : y.toNat < 2 * (c * m)) :
    (condSub c m y).toNat < c * m := by
  unfold condSub
  split
  · rename_i h
    have h' : c * m ≤ y.toNat := by
      have := BitVec.le_def.mp h
      rwa [BitVec.toNat_ofNat, Nat.mod_eq_of_lt hc] at this
    rw [BitVec.toNat_sub_of_le h, BitVec.toNat_ofNat, Nat.mod_eq_of_lt hc]
    omega
  · rename_i h
    have := BitVec.le_def.not.mp h
    rw [BitVec.toNat_ofNat, Nat.mod_eq_of_lt hc] at this
    omega

/-- the final subtractions of the three helper classes -/
def reduce (m : Nat) : Nat → BitVec 64 → BitVec 64
  | 0, y => condSub 1 m y
  | 1, y => condSub 1 m (condSub 2 m y)
  | _, y => condSub 1 m (condSub 2 m (condSub 4 m y))

theorem reduce_toNat {m h : Nat} (hm : 4 * m < 2 ^ 64) {y : BitVec 64} (h2 : h ≤ 2)
    (hy : y.toNat < 2 ^ (h + 1) * m) : (reduce m h y).toNat = y.toNat % m := by
  have e1 : ∀ z : BitVec 64, z.toNat < 2 * m → (condSub 1 m z).toNat = z.toNat % m := by
    intro z hz
    have h1 := condSub_mod (c := 1) (m := m) (y := z) (by omega)
    have h2 := condSub_lt (c := 1) (m := m) (y := z) (by omega) (by omega)
    rw [← h1, Nat.mod_eq_of_lt (by omega)]
  have e2 : ∀ z : BitVec 64, z.toNat < 4 * m →
      (condSub 1 m (condSub 2 m z)).toNat = z.toNat % m := by
    intro z hz
    rw [e1 _ (condSub_lt (c := 2) (by omega) (by omega)), condSub_mod (by omega)]
  interval_cases h
  · exact e1 y (by simpa using hy)
  · exact e2 y (by simpa using hy)
  · show (condSub 1 m (condSub 2 m (condSub 4 m y))).toNat = _
    rw [e2 _ (condSub_lt (c := 4) (by omega) (by norm_num at hy; omega)), condSub_mod (by omega)]

theorem toInt_setWidth_of_lt {y : BitVec 64} (h : y.toNat < 2 ^ 31) :
    (y.setWidth 32).toInt = y.toNat := by
  rw [BitVec.toInt_eq_toNat_of_lt]
  · rw [BitVec.toNat_setWidth, Nat.mod_eq_of_lt (by omega)]
  · rw [BitVec.toNat_setWidth, Nat.mod_eq_of_lt (by omega)]; omega

theorem and_mask31 (x : BitVec 64) : (x &&& BitVec.ofNat 64 (2 ^ 31 - 1)).toNat = x.toNat % 2 ^ 31 := by
  rw [BitVec.toNat_and, BitVec.toNat_ofNat, Nat.mod_eq_of_lt (by norm_num), Nat.and_two_pow_sub_one_eq_mod]

theorem shr31 (x : BitVec 64) : (x >>> 31).toNat = x.toNat / 2 ^ 31 := by
  rw [BitVec.toNat_ushiftRight, Nat.shiftRight_eq_div_pow]

theorem modE_eq {m : Nat} (h1 : 2 ^ 30 < m) (h2 : m ≤ 2 ^ 31) : modE m = 31 := by
  unfold modE
  rw [log2Ceil_eq (by omega)]
  apply le_antisymm
  · exact (Nat.clog_le_iff_le_pow (by omega)).mpr h2
  · by_contra hc
    have h3 : Nat.clog 2 m ≤ 30 := by omega
    have := (Nat.clog_le_iff_le_pow (b := 2) (by omega)).mp h3
    omega

/-- The Mersenne branch. -/
theorem moduloHelper_m31 {h : Nat} (h2 : h ≤ 2) (x : BitVec 64)
    (hx : x.toNat / 2 ^ 31 + 2147483647 < 2 ^ (h + 1) * 2147483647) :
    moduloHelper 2147483647 h x = ((x.toNat % 2147483647 : Nat) : Int) := by
  have hE : modE 2147483647 = 31 := modE_eq (by omega) (by omega)
  have hM : modMask 2147483647 = 2 ^ 31 - 1 := by unfold modMask; rw [hE]
  unfold moduloHelper
  dsimp only
  rw [if_pos (by rw [hM]; norm_num), hE, hM]
  have hp : (2 : Nat) ^ (h + 1) ≤ 2 ^ 3 := Nat.pow_le_pow_right (by omega) (by omega)
  have hy : ((x &&& BitVec.ofNat 64 (2 ^ 31 - 1)) + (x >>> 31)).toNat =
      x.toNat % 2 ^ 31 + x.toNat / 2 ^ 31 := by
    rw [BitVec.toNat_add, and_mask31, shr31, Nat.mod_eq_of_lt]
    have := Nat.mod_lt x.toNat (show 0 < 2 ^ 31 by norm_num)
    omega
  have hlt : x.toNat % 2 ^ 31 + x.toNat / 2 ^ 31 < 2 ^ (h + 1) * 2147483647 := by
    have := Nat.mod_lt x.toNat (show 0 < 2 ^ 31 by norm_num)
    omega
  have hmod : (x.toNat % 2 ^ 31 + x.toNat / 2 ^ 31) % 2147483647 = x.toNat % 2147483647 := by
    conv_rhs => rw [← Nat.mod_add_div x.toNat (2 ^ 31)]
    rw [show x.toNat % 2 ^ 31 + 2 ^ 31 * (x.toNat / 2 ^ 31) =
      (x.toNat % 2 ^ 31 + x.toNat / 2 ^ 31) + 2147483647 * (x.toNat / 2 ^ 31) by ring,
      Nat.add_mul_mod_self_left]
  generalize hyy : (x &&& BitVec.ofNat 64 (2 ^ 31 - 1)) + (x >>> 31) = y at *
  have hlt31 : x.toNat % 2147483647 < 2 ^ 31 := by omega
  have key : ∀ z : BitVec 64, z = y → ((reduce 2147483647 h z).setWidth 32).toInt =
      ((x.toNat % 2147483647 : Nat) : Int) := by
    intro z hz
    subst hz
    have hr : (reduce 2147483647 h z).toNat = x.toNat % 2147483647 := by
      rw [reduce_toNat (by norm_num) h2 (by omega), hy, hmod]
    rw [toInt_setWidth_of_lt (by omega), hr]
  interval_cases h
  · refine key _ ?_
    apply BitVec.eq_of_toNat_eq
    rw [BitVec.toNat_setWidth, BitVec.toNat_setWidth, Nat.mod_eq_of_lt, Nat.mod_eq_of_lt] <;> omega
  · exact key _ rfl
  · exact key _ rfl

theorem foldStep_toNat {k : Nat} (hk : k < 2 ^ 15) (x : BitVec 64) :
    ((x &&& BitVec.ofNat 64 (2 ^ 31 - 1)) + (x >>> 31) * BitVec.ofNat 64 k).toNat =
      x.toNat % 2 ^ 31 + x.toNat / 2 ^ 31 * k := by
  have h1 := Nat.mod_lt x.toNat (show 0 < 2 ^ 31 by norm_num)
  have h2 := x.isLt
  have h3 : x.toNat / 2 ^ 31 ≤ 2 ^ 33 := by omega
  have h4 : x.toNat / 2 ^ 31 * k ≤ 2 ^ 33 * 2 ^ 15 := Nat.mul_le_mul h3 hk.le
  rw [BitVec.toNat_add, and_mask31, BitVec.toNat_mul, shr31, BitVec.toNat_ofNat,
    Nat.mod_eq_of_lt (a := k) (by omega), Nat.mod_eq_of_lt (a := _ * k) (by omega),
    Nat.mod_eq_of_lt (by omega)]

theorem foldStep_mod {m k X : Nat} (hmk : m + k = 2 ^ 31) :
    (X % 2 ^ 31 + X / 2 ^ 31 * k) % m = X % m := by
  conv_rhs => rw [← Nat.mod_add_div X (2 ^ 31)]
  rw [← hmk, show X % (m + k) + (m + k) * (X / (m + k)) =
      (X % (m + k) + X / (m + k) * k) + m * (X / (m + k)) by ring, Nat.add_mul_mod_self_left]

/-- The branch for moduli close to `2^31`. -/
theorem moduloHelper_near {m k h : Nat} (hmk : m + k = 2 ^ 31) (hk0 : 2 ≤ k)
    (hkk : k * (k + 2) ≤ m) (hk : k < 2 ^ 15) (h2 : h ≤ 2) (x : BitVec 64)
    (hx : 2 ^ 31 + (2 ^ 31 + x.toNat / 2 ^ 31 * k) / 2 ^ 31 * k ≤ 2 ^ (h + 1) * m) :
    moduloHelper m h x = ((x.toNat % m : Nat) : Int) := by
  have hm : 2 ^ 30 < m := by omega
  have hE : modE m = 31 := modE_eq hm (by omega)
  have hM : modMask m = 2 ^ 31 - 1 := by unfold modMask; rw [hE]
  have hK : modK m = k := by unfold modK; rw [hE]; omega
  unfold moduloHelper
  dsimp only
  rw [if_neg (by rw [hM]; omega), hE, hM, hK, if_pos hkk]
  have hp : (2 : Nat) ^ (h + 1) ≤ 2 ^ 3 := Nat.pow_le_pow_right (by omega) (by omega)
  have hy1 := foldStep_toNat hk x
  generalize (x &&& BitVec.ofNat 64 (2 ^ 31 - 1)) + (x >>> 31) * BitVec.ofNat 64 k = y1 at *
  have hy2 := foldStep_toNat hk y1
  generalize (y1 &&& BitVec.ofNat 64 (2 ^ 31 - 1)) + (y1 >>> 31) * BitVec.ofNat 64 k = y at *
  have hmod : y.toNat % m = x.toNat % m := by
    rw [hy2, foldStep_mod hmk, hy1, foldStep_mod hmk]
  have hlt : y.toNat < 2 ^ (h + 1) * m := by
    have h1 := Nat.mod_lt y1.toNat (show 0 < 2 ^ 31 by norm_num)
    have h3 := Nat.mod_lt x.toNat (show 0 < 2 ^ 31 by norm_num)
    have h4 : y1.toNat / 2 ^ 31 ≤ (2 ^ 31 + x.toNat / 2 ^ 31 * k) / 2 ^ 31 :=
      Nat.div_le_div_right (by omega)
    have h5 := Nat.mul_le_mul_right k h4
    omega
  have hlt31 : x.toNat % m < 2 ^ 31 := by
    have := Nat.mod_lt x.toNat (show 0 < m by omega)
    omega
  have key : ((reduce m h y).setWidth 32).toInt = ((x.toNat % m : Nat) : Int) := by
    have hr : (reduce m h y).toNat = x.toNat % m := by
      rw [reduce_toNat (by omega) h2 hlt, hmod]
    rw [toInt_setWidth_of_lt (by omega), hr]
  interval_cases h <;> exact key

/-- The moduli used by the engines. -/
def IsEngineModulus (m : Nat) : Prop := m = 2147483647 ∨ m = 2147462579 ∨ m = 2147461007

theorem modulo_eq {m r : Nat} (hm : IsEngineModulus m) (hr1 : 1 ≤ r) (hr5 : r ≤ 5) (x : BitVec 64)
    (hx : 4 ≤ r ∨ x.toNat ≤ r * ((m - 1) * (m - 1))) :
    modulo m r x = ((x.toNat % m : Nat) : Int) := by
  have hlt := x.isLt
  have hl : (r = 1 ∧ log2Floor r = 0) ∨ (r ≤ 3 ∧ log2Floor r = 1) ∨ (4 ≤ r ∧ log2Floor r = 2) := by
    interval_cases r <;> decide
  unfold modulo
  rcases hm with rfl | rfl | rfl
  · rcases hl with ⟨h1, h2⟩ | ⟨h1, h2⟩ | ⟨h1, h2⟩ <;> rw [h2]
    · subst h1
      exact moduloHelper_m31 (by omega) x (by norm_num at hx ⊢; omega)
    · refine moduloHelper_m31 (by omega) x ?_
      have : x.toNat ≤ 3 * ((2147483647 - 1) * (2147483647 - 1)) := by
        rcases hx with h | h
        · omega
        · exact h.trans (Nat.mul_le_mul_right _ h1)
      norm_num at this ⊢
      omega
    · exact moduloHelper_m31 (by omega) x (by norm_num at hx ⊢; omega)
  · rcases hl with ⟨h1, h2⟩ | ⟨h1, h2⟩ | ⟨h1, h2⟩ <;> rw [h2]
    · subst h1
      exact moduloHelper_near (k := 21069) (by norm_num) (by omega) (by omega) (by omega) (by omega) x
        (by norm_num at hx ⊢; omega)
    · refine moduloHelper_near (k := 21069) (by norm_num) (by omega) (by omega) (by omega) (by omega) x ?_
      have : x.toNat ≤ 3 * ((2147462579 - 1) * (2147462579 - 1)) := by
        rcases hx with h | h
        · omega
        · exact h.trans (Nat.mul_le_mul_right _ h1)
      norm_num at this ⊢
      omega
    · exact moduloHelper_near (k := 21069) (by norm_num) (by omega) (by omega) (by omega) (by omega) x
        (by norm_num at hx ⊢; omega)
  · rcases hl with ⟨h1, h2⟩ | ⟨h1, h2⟩ | ⟨h1, h2⟩ <;> rw [h2]
    · subst h1
      exact moduloHelper_near (k := 22641) (by norm_num) (by omega) (by omega) (by omega) (by omega) x
        (by norm_num at hx ⊢; omega)
    · refine moduloHelper_near (k := 22641) (by norm_num) (by omega) (by omega) (by omega) (by omega) x ?_
      have : x.toNat ≤ 3 * ((2147461007 - 1) * (2147461007 - 1)) := by
        rcases hx with h | h
        · omega
        · exact h.trans (Nat.mul_le_mul_right _ h1)
      norm_num at this ⊢
      omega
    · exact moduloHelper_near (k := 22641) (by norm_num) (by omega) (by omega) (by omega) (by omega) x
        (by norm_num at hx ⊢; omega)

end Trng.IntMath
