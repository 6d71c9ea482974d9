import Verif.Proofs.LCG64
import Mathlib.Data.Fintype.Card
import Mathlib.Data.Fintype.EquivFin
/- Period of lcg64 / lcg64_shift (Hull–Dobell for modulus 2^64) and the output bijection. -/
namespace Trng.LCG64
open Finset

theorem geoNat_even (A m : Nat) :
    ∑ i ∈ range (2 * m), A ^ i = (∑ i ∈ range m, A ^ i) * (1 + A ^ m) := by
  rw [two_mul, sum_range_add]
  simp only [pow_add, ← mul_sum]
  ring

theorem geoNat_odd (A m : Nat) (hA : A % 2 = 1) :
    (∑ i ∈ range m, A ^ i) % 2 = m % 2 := by
  induction m with
  | zero => simp
  | succ m ih =>
    rw [sum_range_succ, Nat.add_mod, ih, Nat.pow_mod, hA]
    simp [Nat.add_mod]

theorem two_pow_dvd_geoNat (A : Nat) (hA : A % 4 = 1) (k n : Nat) :
    2 ^ k ∣ ∑ i ∈ range n, A ^ i ↔ 2 ^ k ∣ n := by
  induction k generalizing n with
  | zero => simp
  | succ k ih =>
    rcases Nat.even_or_odd' n with ⟨m, rfl | rfl⟩
    · rw [geoNat_even, pow_succ, Nat.mul_comm 2 m]
      have h4 : (1 + A ^ m) % 4 = 2 := by
        rw [Nat.add_mod, Nat.pow_mod, hA]; simp
      obtain ⟨d, hd⟩ : ∃ d, 1 + A ^ m = 2 * (2 * d + 1) := ⟨(1 + A ^ m) / 4, by omega⟩
      rw [hd, show (∑ i ∈ range m, A ^ i) * (2 * (2 * d + 1))
        = (∑ i ∈ range m, A ^ i) * (2 * d + 1) * 2 by ring]
      rw [Nat.mul_dvd_mul_iff_right (by norm_num), Nat.mul_dvd_mul_iff_right (by norm_num)]
      rw [Nat.Coprime.dvd_mul_right, ih]
      apply Nat.Coprime.pow_left
      simp
    · have h1 := geoNat_odd A (2 * m + 1) (by omega)
      constructor
      · intro h
        have : 2 ∣ ∑ i ∈ range (2 * m + 1), A ^ i := dvd_trans (dvd_pow_self 2 (by omega)) h
        omega
      · intro h
        have : 2 ∣ 2 * m + 1 := dvd_trans (dvd_pow_self 2 (by omega)) h
        omega

theorem geo_eq_cast (a : BitVec 64) (n : Nat) :
    geo a n = BitVec.ofNat 64 (∑ i ∈ range n, a.toNat ^ i) := by
  have h : a = ((a.toNat : Nat) : BitVec 64) := by
    rw [BitVec.natCast_eq_ofNat]; simp
  rw [← BitVec.natCast_eq_ofNat]
  push_cast
  rw [← h]
  rfl

theorem geo_eq_zero_iff (a : BitVec 64) (ha : a.toNat % 4 = 1) (n : Nat) :
    geo a n = 0 ↔ 2 ^ 64 ∣ n := by
  rw [geo_eq_cast, ← two_pow_dvd_geoNat a.toNat ha 64 n]
  rw [← BitVec.toNat_inj, BitVec.toNat_ofNat, Nat.dvd_iff_mod_eq_zero]
  simp

theorem mul_eq_zero_of_odd (x u : BitVec 64) (hu : u.toNat % 2 = 1) (h : x * u = 0) : x = 0 := by
  have h1 : u ^ 2 ^ 64 = 1 := pow_period u hu
  have h2 : u ^ 2 ^ 64 = u * u ^ (2 ^ 64 - 1) := by
    rw [← pow_succ', Nat.sub_add_cancel (by norm_num)]
  calc x = x * (u ^ 2 ^ 64) := by rw [h1, mul_one]
    _ = x * u * u ^ (2 ^ 64 - 1) := by rw [h2, mul_assoc]
    _ = 0 := by rw [h, zero_mul]

theorem step_iterate_eq_self_iff (e : LCG64) (ha : e.P.a.toNat % 4 = 1)
    (hb : e.P.b.toNat % 2 = 1) (n : Nat) : step^[n] e = e ↔ 2 ^ 64 ∣ n := by
  rw [← geo_eq_zero_iff e.P.a ha n, step_iterate]
  have hu : ((e.P.a - 1) * e.r + e.P.b).toNat % 2 = 1 := by
    rw [BitVec.toNat_add, Nat.mod_mod_of_dvd _ (by decide : 2 ∣ 2 ^ 64), BitVec.toNat_mul,
      Nat.add_mod, Nat.mod_mod_of_dvd _ (by decide : 2 ∣ 2 ^ 64), Nat.mul_mod]
    have h1 : (e.P.a - 1).toNat % 2 = 0 := by
      rw [BitVec.toNat_sub]
      have := e.P.a.isLt
      simp; omega
    rw [h1, hb]; simp
  constructor
  · intro h
    have h1 : e.P.a ^ n * e.r + geo e.P.a n * e.P.b = e.r := congrArg LCG64.r h
    apply mul_eq_zero_of_odd _ _ hu
    rw [pow_sub_one] at h1
    linear_combination h1
  · intro h
    rw [h, pow_sub_one, h]
    simp

theorem step_injective (e e' : LCG64) (hP : e.P = e'.P) (ha : e.P.a.toNat % 2 = 1)
    (h : step e = step e') : e = e' := by
  have h1 := step_backward e ha
  have h2 := step_backward e' (hP ▸ ha)
  rw [← Function.iterate_succ_apply' step, Function.iterate_succ_apply] at h1 h2
  rw [← h1, h, h2]

theorem step_P (e : LCG64) : (step e).P = e.P := rfl

theorem step_iterate_P (e : LCG64) (n : Nat) : (step^[n] e).P = e.P := by
  rw [step_iterate]

theorem iterate_injective (e : LCG64) (ha : e.P.a.toNat % 4 = 1) (hb : e.P.b.toNat % 2 = 1)
    (i j : Nat) (hi : i < 2 ^ 64) (hj : j < 2 ^ 64) (h : step^[i] e = step^[j] e) : i = j := by
  wlog hij : i ≤ j generalizing i j
  · exact (this j i hj hi h.symm (by omega)).symm
  have hd : step^[j - i] e = e := by
    have aux : ∀ i d, step^[i] e = step^[i + d] e → step^[d] e = e := by
      intro i d
      induction i with
      | zero => intro h; simpa using h.symm
      | succ i ih =>
        intro h
        apply ih
        rw [Function.iterate_succ_apply', Nat.add_right_comm, Function.iterate_succ_apply'] at h
        exact step_injective _ _ (by rw [step_iterate_P, step_iterate_P])
          (by rw [step_iterate_P]; omega) h
    apply aux i
    rw [Nat.add_sub_cancel' hij]; exact h
  rw [step_iterate_eq_self_iff e ha hb] at hd
  have := Nat.eq_zero_of_dvd_of_lt hd (by omega)
  omega

theorem bijective_of_injOn (F : Nat → BitVec 64)
    (h : ∀ i j, i < 2 ^ 64 → j < 2 ^ 64 → F i = F j → i = j) (v : BitVec 64) :
    ∃ k, k < 2 ^ 64 ∧ F k = v := by
  let G : Fin (2 ^ 64) → Fin (2 ^ 64) := fun i => (F i.val).toFin
  have hinj : Function.Injective G := by
    intro i j hij
    apply Fin.ext
    apply h _ _ i.isLt j.isLt
    exact BitVec.toFin_inj.1 hij
  have hsurj := Finite.surjective_of_injective hinj
  obtain ⟨k, hk⟩ := hsurj v.toFin
  exact ⟨k.val, k.isLt, BitVec.toFin_inj.1 hk⟩

/-! ### the output transformation is injective -/

theorem xor_ushiftRight_injective {w : Nat} (k : Nat) (hk : 0 < k) :
    Function.Injective (fun x : BitVec w => x ^^^ (x >>> k)) := by
  intro x y h
  have h0 : x ^^^ y = (x ^^^ y) >>> k := by
    simp only at h
    rw [BitVec.ushiftRight_xor_distrib]
    have : x ^^^ y = (x ^^^ x >>> k) ^^^ (y ^^^ y >>> k) ^^^ (x >>> k ^^^ y >>> k) := by
      apply BitVec.eq_of_getLsbD_eq
      intro i _
      simp only [BitVec.getLsbD_xor]
      cases x.getLsbD i <;> cases y.getLsbD i <;> cases (x >>> k).getLsbD i <;>
        cases (y >>> k).getLsbD i <;> rfl
    rw [this, h, BitVec.xor_self, BitVec.zero_xor]
  have hz : (x ^^^ y).toNat = 0 := by
    have h1 := congrArg BitVec.toNat h0
    rw [BitVec.toNat_ushiftRight, Nat.shiftRight_eq_div_pow] at h1
    by_contra hne
    have : 1 < 2 ^ k := Nat.one_lt_two_pow (by omega)
    have := Nat.div_lt_self (Nat.pos_of_ne_zero hne) this
    omega
  have hz' : x ^^^ y = 0 := BitVec.eq_of_toNat_eq (by simpa using hz)
  exact BitVec.xor_eq_zero_iff.1 hz'

theorem xor_shiftLeft_injective {w : Nat} (k : Nat) (hk : 0 < k) :
    Function.Injective (fun x : BitVec w => x ^^^ (x <<< k)) := by
  intro x y h
  have h0 : x ^^^ y = (x ^^^ y) <<< k := by
    simp only at h
    rw [BitVec.shiftLeft_xor_distrib]
    have : x ^^^ y = (x ^^^ x <<< k) ^^^ (y ^^^ y <<< k) ^^^ (x <<< k ^^^ y <<< k) := by
      apply BitVec.eq_of_getLsbD_eq
      intro i _
      simp only [BitVec.getLsbD_xor]
      cases x.getLsbD i <;> cases y.getLsbD i <;> cases (x <<< k).getLsbD i <;>
        cases (y <<< k).getLsbD i <;> rfl
    rw [this, h, BitVec.xor_self, BitVec.zero_xor]
  have hbits : ∀ i, (x ^^^ y).getLsbD i = false := by
    intro i
    induction i using Nat.strong_induction_on with
    | _ i ih =>
      rw [h0, BitVec.getLsbD_shiftLeft]
      by_cases hlt : i < k
      · simp [hlt]
      · rw [ih (i - k) (by omega)]; simp
  have hz' : x ^^^ y = 0 := by
    apply BitVec.eq_of_getLsbD_eq
    intro i _
    rw [hbits]; simp
  exact BitVec.xor_eq_zero_iff.1 hz'

theorem shiftOut_injective : Function.Injective shiftOut := by
  have h1 := xor_ushiftRight_injective (w := 64) 17 (by omega)
  have h2 := xor_shiftLeft_injective (w := 64) 31 (by omega)
  have h3 := xor_ushiftRight_injective (w := 64) 8 (by omega)
  exact h3.comp (h2.comp h1)

end Trng.LCG64
