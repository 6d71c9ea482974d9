import Verif.Proofs.Modulo
import Mathlib.Algebra.BigOperators.Fin
import Mathlib.Algebra.BigOperators.Ring.Finset
import Mathlib.Data.Int.ModEq
import Mathlib.Data.Nat.ModEq

/-! Helper lemmas for the matrix products and the power table of int_math (C23, C25). -/
namespace Trng.IntMath

theorem toI32_of_range {x m : Int} (h0 : 0 ≤ x) (h1 : x < m) (hm : m ≤ 2147483648) : toI32 x = x := by
  unfold toI32
  rw [BitVec.toInt_ofInt, Int.bmod_def]
  omega

theorem dotLoop_eq {m : Int} (hm : 0 < m) : ∀ (xs : List Int) (t : Int), 0 ≤ t → t < m →
    (∀ x ∈ xs, 0 ≤ x) → dotLoop m t xs = (t + xs.sum) % m
  | [], t, h0, h1, _ => by
    simp only [dotLoop, List.foldl_nil, List.sum_nil, Int.add_zero]
    rw [Int.emod_eq_of_lt h0 h1]
  | x :: xs, t, h0, h1, hx => by
    have hx0 : 0 ≤ x := hx x (by simp)
    have hr0 := Int.emod_nonneg x (show m ≠ 0 by omega)
    have hr1 := Int.emod_lt_of_pos x hm
    have hstep : dotLoop m t (x :: xs) =
        dotLoop m (if t + x.tmod m ≥ m then t + x.tmod m - m else t + x.tmod m) xs := rfl
    rw [hstep, Int.tmod_eq_emod_of_nonneg hx0]
    have e : ∀ t', t' % m = (t + x) % m → 0 ≤ t' → t' < m → dotLoop m t' xs = (t + (x :: xs).sum) % m := by
      intro t' ht' h2 h3
      rw [dotLoop_eq hm xs t' h2 h3 (fun y hy => hx y (by simp [hy])), List.sum_cons, ← Int.add_assoc,
        Int.add_emod, ht', ← Int.add_emod]
    split
    · refine e _ ?_ (by omega) (by omega)
      rw [Int.sub_emod_right, Int.add_emod_emod]
    · refine e _ ?_ (by omega) (by omega)
      rw [Int.add_emod_emod]

variable {n : Nat}

theorem matrixVecMult_eq {m : Int} (hm : 0 < m) (hm' : m ≤ 2147483648)
    (a : Fin n → Fin n → Int) (b : Fin n → Int)
    (ha : ∀ i j, 0 ≤ a i j) (hb : ∀ i, 0 ≤ b i) (j : Fin n) :
    matrixVecMult a b m j = (∑ k, a j k * b k) % m := by
  unfold matrixVecMult
  rw [dotLoop_eq hm _ 0 le_rfl hm (by
    intro x hx
    obtain ⟨k, -, rfl⟩ := List.mem_map.1 hx
    exact mul_nonneg (ha j k) (hb k)), Int.zero_add, ← List.ofFn_eq_map, List.sum_ofFn]
  exact toI32_of_range (Int.emod_nonneg _ (by omega)) (Int.emod_lt_of_pos _ hm) hm'

theorem matrixMult_eq {m : Int} (hm : 0 < m) (hm' : m ≤ 2147483648)
    (a b : Fin n → Fin n → Int) (ha : ∀ i j, 0 ≤ a i j) (hb : ∀ i j, 0 ≤ b i j) (j i : Fin n) :
    matrixMult a b m j i = (∑ k, a j k * b k i) % m := by
  unfold matrixMult
  rw [dotLoop_eq hm _ 0 le_rfl hm (by
    intro x hx
    obtain ⟨k, -, rfl⟩ := List.mem_map.1 hx
    exact mul_nonneg (ha j k) (hb k i)), Int.zero_add, ← List.ofFn_eq_map, List.sum_ofFn]
  exact toI32_of_range (Int.emod_nonneg _ (by omega)) (Int.emod_lt_of_pos _ hm) hm'

/-! ### powers -/

theorem engineModulus_bounds {m : Nat} (hm : IsEngineModulus m) : 2 ^ 30 < m ∧ m < 2 ^ 31 := by
  rcases hm with rfl | rfl | rfl <;> norm_num

theorem modulo_mul {m : Nat} (hm : IsEngineModulus m) {p t : Nat} (hp : p < m) (ht : t < m) :
    modulo m 1 (BitVec.ofInt 64 ((p : Int) * t)) = ((p * t % m : Nat) : Int) := by
  obtain ⟨h1, h2⟩ := engineModulus_bounds hm
  have hle : p * t ≤ (m - 1) * (m - 1) := Nat.mul_le_mul (by omega) (by omega)
  have hlt : (m - 1) * (m - 1) < 2 ^ 64 := by
    calc (m - 1) * (m - 1) ≤ 2 ^ 31 * 2 ^ 31 := Nat.mul_le_mul (by omega) (by omega)
      _ < 2 ^ 64 := by norm_num
  have e : (BitVec.ofInt 64 ((p : Int) * t)).toNat = p * t := by
    rw [← Int.natCast_mul, BitVec.ofInt_natCast, BitVec.toNat_ofNat, Nat.mod_eq_of_lt (by omega)]
  rw [modulo_eq hm le_rfl (by omega) _ (Or.inr (by rw [e]; omega)), e]

theorem powLoop_eq {m : Nat} (hm : IsEngineModulus m) : ∀ (fuel n p t : Nat), n < 2 ^ fuel → p < m →
    t < m → powLoop m fuel (p : Int) (t : Int) n = ((p * t ^ n % m : Nat) : Int)
  | 0, n, p, t, hn, hp, _ => by
    have : n = 0 := by omega
    subst this
    simp only [powLoop, pow_zero, Nat.mul_one, Nat.mod_eq_of_lt hp]
  | fuel + 1, n, p, t, hn, hp, ht => by
    have hm0 : 0 < m := by omega
    unfold powLoop
    by_cases h0 : n > 0
    · rw [if_pos h0, modulo_mul hm ht ht]
      have hlt : n / 2 < 2 ^ fuel := by rw [pow_succ] at hn; omega
      have ht' : t * t % m < m := Nat.mod_lt _ hm0
      by_cases h1 : n % 2 = 1
      · rw [if_pos h1, modulo_mul hm hp ht, powLoop_eq hm fuel (n / 2) _ _ hlt (Nat.mod_lt _ hm0) ht']
        congr 1
        conv_rhs => rw [show n = 2 * (n / 2) + 1 by omega, pow_succ, pow_mul]
        rw [Nat.mod_mul_mod, Nat.mul_mod, Nat.pow_mod, Nat.mod_mod, ← Nat.pow_mod, ← Nat.mul_mod]
        congr 1; ring
      · rw [if_neg h1, powLoop_eq hm fuel (n / 2) _ _ hlt hp ht']
        congr 1
        conv_rhs => rw [show n = 2 * (n / 2) by omega, pow_mul]
        rw [Nat.mul_mod, Nat.pow_mod, Nat.mod_mod, ← Nat.pow_mod, ← Nat.mul_mod]
        congr 1; ring
    · rw [if_neg h0]
      have : n = 0 := by omega
      subst this
      simp [Nat.mod_eq_of_lt hp]

theorem powerPow_eq {m b : Nat} (hm : IsEngineModulus m) (hb : b < m) {n : Nat} (hn : n < 2 ^ 32) :
    powerPow m b n = ((b ^ n % m : Nat) : Int) := by
  have := engineModulus_bounds hm
  have := powLoop_eq hm 32 n 1 b hn (by omega) hb
  rw [Nat.one_mul] at this
  exact this

theorem powerApply_eq {m b : Nat} (hm : IsEngineModulus m) (hb : b < m) (n : BitVec 32)
    (hn : n.toNat < 2 ^ 31) : powerApply m b n = some ((b ^ n.toNat % m : Nat) : Int) := by
  have hm0 : 0 < m := by omega
  have e1 : (n.sshiftRight 16).toInt = ((n.toNat / 2 ^ 16 : Nat) : Int) := by
    rw [BitVec.toInt_sshiftRight, BitVec.toInt_eq_toNat_of_lt (by omega), Int.shiftRight_eq_div_pow]
    norm_cast
  have e2 : (n &&& 0xffff#32).toInt = ((n.toNat % 2 ^ 16 : Nat) : Int) := by
    have h : (n &&& 0xffff#32).toNat = n.toNat % 2 ^ 16 := by
      rw [BitVec.toNat_and, show (0xffff#32).toNat = 2 ^ 16 - 1 from rfl, Nat.and_two_pow_sub_one_eq_mod]
    rw [BitVec.toInt_eq_toNat_of_lt (by rw [h]; omega), h]
  unfold powerApply bPower1 bPower0
  rw [e1, e2, if_pos (by omega), if_pos (by omega)]
  simp only [Option.bind_eq_bind, Option.bind_some, Int.toNat_natCast, Option.pure_def]
  rw [powerPow_eq hm hb (by omega), powerPow_eq hm hb (by omega), ← BitVec.ofInt_mul,
    modulo_mul hm (Nat.mod_lt _ hm0) (Nat.mod_lt _ hm0), ← Nat.mul_mod, ← pow_add]
  rw [show n.toNat / 2 ^ 16 * 65536 + n.toNat % 2 ^ 16 = n.toNat by omega]

end Trng.IntMath
