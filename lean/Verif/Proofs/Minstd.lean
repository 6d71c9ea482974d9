import Verif.Model.Minstd
import Verif.Proofs.Engine
import Verif.Proofs.PowModNat
import Mathlib.NumberTheory.LucasPrimality
import Mathlib.Data.Nat.Factorization.Basic
import Mathlib.Tactic.NormNum.Prime
namespace Trng.Minstd

/-- the modulus 2^31-1 -/
def p : Nat := 2147483647

theorem setWidth64 (x : BitVec 32) : (x.setWidth 64).toNat = x.toNat := by
  rw [BitVec.toNat_setWidth]; have := x.isLt; omega

/-- `step` multiplies by 16807 modulo 2^31-1 (every state below 2^31-1) -/
theorem step_toNat (e : Minstd) (h : e.r.toNat < p) :
    (step e).r.toNat = 16807 * e.r.toNat % p := by
  have h1 : (e.r.setWidth 64 * 16807#64).toNat = e.r.toNat * 16807 := by
    rw [BitVec.toNat_mul, setWidth64]
    simp only [p, BitVec.toNat_ofNat] at *
    omega
  have h2 : ∀ t : BitVec 64, (t &&& 0x7fffffff#64).toNat = t.toNat % 2 ^ 31 := fun t => by
    rw [BitVec.toNat_and]; exact Nat.and_two_pow_sub_one_eq_mod _ 31
  have h3 : ∀ t : BitVec 64, (t >>> 31).toNat = t.toNat / 2 ^ 31 := fun t => by
    rw [BitVec.toNat_ushiftRight, Nat.shiftRight_eq_div_pow]
  unfold step
  simp only
  generalize e.r.setWidth 64 * 16807#64 = t at *
  have h4 : ((t &&& 0x7fffffff#64) + (t >>> 31)).toNat = t.toNat % 2 ^ 31 + t.toNat / 2 ^ 31 := by
    rw [BitVec.toNat_add, h2, h3]
    simp only [p] at *
    omega
  generalize (t &&& 0x7fffffff#64) + (t >>> 31) = u at *
  have h5 : u ≥ 2147483647#64 ↔ p ≤ u.toNat := by
    rw [ge_iff_le, BitVec.le_def]; rfl
  have h6 : 16807 * e.r.toNat % p = u.toNat % p := by
    rw [show 16807 * e.r.toNat = u.toNat + p * (t.toNat / 2 ^ 31) by simp only [p]; omega,
      Nat.add_mul_mod_self_left]
  have h7 : u.toNat < 2 * p := by simp only [p] at *; omega
  rw [h6]
  by_cases hu : p ≤ u.toNat
  · have h8 : (u - 2147483647#64).toNat = u.toNat - p := by
      rw [BitVec.toNat_sub, BitVec.toNat_ofNat]
      clear h6 h4 h1
      simp only [p] at *
      omega
    rw [if_pos (h5.2 hu), BitVec.toNat_setWidth, h8, Nat.mod_eq_sub_mod hu,
      Nat.mod_eq_of_lt (by omega : u.toNat - p < p)]
    apply Nat.mod_eq_of_lt
    simp only [p] at *; omega
  · rw [if_neg (mt h5.1 hu), BitVec.toNat_setWidth, Nat.mod_eq_of_lt (by omega : u.toNat < p)]
    apply Nat.mod_eq_of_lt
    simp only [p] at *; omega

theorem step_iterate_toNat (e : Minstd) (h : e.r.toNat < p) (n : Nat) :
    (step^[n] e).r.toNat = 16807 ^ n * e.r.toNat % p := by
  induction n with
  | zero => simp [Nat.mod_eq_of_lt h]
  | succ n ih =>
    have hp : 0 < p := by decide
    rw [Function.iterate_succ_apply', step_toNat _ (by rw [ih]; exact Nat.mod_lt _ hp), ih,
      Nat.mul_mod_mod, pow_succ]
    congr 1; ring

theorem primes_of_dvd {q : Nat} (hq : q.Prime) (hd : q ∣ p - 1) :
    q = 2 ∨ q = 3 ∨ q = 7 ∨ q = 11 ∨ q = 31 ∨ q = 151 ∨ q = 331 := by
  have e : p - 1 = 2 * (3 * (3 * (7 * (11 * (31 * (151 * 331)))))) := by decide
  have key : ∀ r : Nat, r.Prime → q ∣ r → q = r := fun r hr h =>
    (Nat.prime_dvd_prime_iff_eq hq hr).1 h
  rw [e] at hd
  rcases (Nat.Prime.dvd_mul hq).1 hd with h | hd
  · exact Or.inl (key 2 (by norm_num) h)
  rcases (Nat.Prime.dvd_mul hq).1 hd with h | hd
  · exact Or.inr (Or.inl (key 3 (by norm_num) h))
  rcases (Nat.Prime.dvd_mul hq).1 hd with h | hd
  · exact Or.inr (Or.inl (key 3 (by norm_num) h))
  rcases (Nat.Prime.dvd_mul hq).1 hd with h | hd
  · exact Or.inr (Or.inr (Or.inl (key 7 (by norm_num) h)))
  rcases (Nat.Prime.dvd_mul hq).1 hd with h | hd
  · exact Or.inr (Or.inr (Or.inr (Or.inl (key 11 (by norm_num) h))))
  rcases (Nat.Prime.dvd_mul hq).1 hd with h | hd
  · exact Or.inr (Or.inr (Or.inr (Or.inr (Or.inl (key 31 (by norm_num) h)))))
  rcases (Nat.Prime.dvd_mul hq).1 hd with h | hd
  · exact Or.inr (Or.inr (Or.inr (Or.inr (Or.inr (Or.inl (key 151 (by norm_num) h))))))
  · exact Or.inr (Or.inr (Or.inr (Or.inr (Or.inr (Or.inr (key 331 (by norm_num) hd))))))

theorem pow_one' : (16807 : ZMod p) ^ (p - 1) = 1 := by
  have := zmod_pow_eq p 16807 (p - 1) 1 (by decide +kernel)
  exact_mod_cast this

theorem pow_ne_one {q : Nat} (hq : q.Prime) (hd : q ∣ p - 1) :
    (16807 : ZMod p) ^ ((p - 1) / q) ≠ 1 := by
  have key : ∀ n, powMod p 16807 n ≠ 1 % p → (16807 : ZMod p) ^ n ≠ 1 := fun n h => by
    have := zmod_pow_ne p 16807 n 1 h
    exact_mod_cast this
  rcases primes_of_dvd hq hd with rfl | rfl | rfl | rfl | rfl | rfl | rfl <;>
    exact key _ (by decide +kernel)

theorem prime_p : p.Prime := lucas_primality p 16807 pow_one' fun _ hq hd => pow_ne_one hq hd

theorem orderOf_eq : orderOf (16807 : ZMod p) = p - 1 :=
  orderOf_eq_of_pow_and_pow_div_prime (by decide) pow_one' fun _ hq hd => pow_ne_one hq hd

instance : Fact p.Prime := ⟨prime_p⟩

/-- states produced by the seeding functions -/
def Valid (e : Minstd) : Prop := 1 ≤ e.r.toNat ∧ e.r.toNat < p

instance (e : Minstd) : Decidable (Valid e) := inferInstanceAs (Decidable (_ ∧ _))

theorem cast_ne_zero (e : Minstd) (h : Valid e) : ((e.r.toNat : Nat) : ZMod p) ≠ 0 := by
  rw [Ne, ZMod.natCast_eq_zero_iff]
  intro hd
  have := Nat.le_of_dvd h.1 hd
  have := h.2
  omega

theorem cast_iterate (e : Minstd) (h : e.r.toNat < p) (n : Nat) :
    (((step^[n] e).r.toNat : Nat) : ZMod p) = 16807 ^ n * (e.r.toNat : ZMod p) := by
  rw [step_iterate_toNat e h, ZMod.natCast_mod]; push_cast; rfl

theorem valid_iterate (e : Minstd) (h : Valid e) (n : Nat) : Valid (step^[n] e) := by
  have h1 := cast_iterate e h.2 n
  have hlt : (step^[n] e).r.toNat < p := by
    rw [step_iterate_toNat e h.2]; exact Nat.mod_lt _ (by decide)
  refine ⟨?_, hlt⟩
  by_contra hc
  have h0 : (step^[n] e).r.toNat = 0 := by omega
  rw [h0, Nat.cast_zero] at h1
  rcases mul_eq_zero.1 h1.symm with h2 | h2
  · have : (16807 : ZMod p) = 0 := by
      by_contra hne
      exact pow_ne_zero _ hne h2
    have h3 : ((16807 : Nat) : ZMod p) = 0 := by exact_mod_cast this
    rw [ZMod.natCast_eq_zero_iff] at h3
    revert h3; decide
  · exact cast_ne_zero e h h2

theorem ext_toNat {e e' : Minstd} (h : e.r.toNat = e'.r.toNat) : e = e' := by
  cases e; cases e'; simp only [Minstd.mk.injEq]; exact BitVec.eq_of_toNat_eq h

/-- two numbers of steps lead to the same state iff they agree modulo 2^31-2 -/
theorem iterate_eq_iff (e : Minstd) (h : Valid e) (m n : Nat) :
    step^[m] e = step^[n] e ↔ m ≡ n [MOD p - 1] := by
  have hm := cast_iterate e h.2 m
  have hn := cast_iterate e h.2 n
  have hu : (16807 : ZMod p) ≠ 0 := by
    intro h0
    have h3 : ((16807 : Nat) : ZMod p) = 0 := by exact_mod_cast h0
    rw [ZMod.natCast_eq_zero_iff] at h3
    revert h3; decide
  have step1 : step^[m] e = step^[n] e ↔ (16807 : ZMod p) ^ m = 16807 ^ n := by
    constructor
    · intro heq
      rw [heq] at hm
      exact mul_right_cancel₀ (cast_ne_zero e h) (hm.symm.trans hn)
    · intro heq
      apply ext_toNat
      rw [heq] at hm
      have := hm.trans hn.symm
      rw [ZMod.natCast_eq_natCast_iff] at this
      have l1 := (valid_iterate e h m).2
      have l2 := (valid_iterate e h n).2
      rw [Nat.ModEq, Nat.mod_eq_of_lt l1, Nat.mod_eq_of_lt l2] at this
      exact this
  rw [step1]
  have := pow_inj_mod (x := Units.mk0 (16807 : ZMod p) hu) (m := n) (n := m)
  have hord : orderOf (Units.mk0 (16807 : ZMod p) hu) = p - 1 := by
    rw [← orderOf_units, Units.val_mk0, orderOf_eq]
  rw [hord] at this
  rw [Nat.ModEq, ← this, ← Units.val_inj, Units.val_pow_eq_pow_val, Units.val_pow_eq_pow_val]
  exact Iff.rfl

theorem repeat_eq (n : Nat) (e : Minstd) : Nat.repeat step n e = step^[n] e := by
  induction n with
  | zero => rfl
  | succ n ih => rw [Function.iterate_succ_apply', ← ih]; rfl

theorem discard_eq (e : Minstd) (n : BitVec 64) :
    e.discard n = step^[n.toNat % 2147483645] e := by
  rw [discard, repeat_eq, BitVec.toNat_umod]
  rfl

theorem afterCalls_call (n : Nat) (e : Minstd) : Spec.afterCalls call n e = step^[n] e :=
  Spec.afterCalls_eq_iterate _ _ _

end Trng.Minstd
