import Verif.Proofs.Gf2Poly
import Mathlib.NumberTheory.LucasLehmer

/-! Mersenne primes, by the test of Lucas and Lehmer. -/
namespace Trng.Mersenne
open Gf2

/-- `n` steps of the test from `s` -/
noncomputable def loop (q c n : Nat) : Nat → Nat :=
  Nat.rec (motive := fun _ => Nat → Nat) (fun s => s)
    (fun _ ih s => force ih (Nat.mod (Nat.add (Nat.mul s s) c) q)) n

theorem loop_succ (q c n s : Nat) : loop q c (n + 1) s = loop q c n ((s * s + c) % q) := force_eq _ _

theorem loop_eq (q n k : Nat) :
    loop q (q - 2) n (LucasLehmer.norm_num_ext.sModNat q k) = LucasLehmer.norm_num_ext.sModNat q (k + n) := by
  induction n generalizing k with
  | zero => rfl
  | succ n ih =>
    rw [loop_succ, show k + (n + 1) = (k + 1) + n by omega, ← ih (k + 1)]
    congr 1
    rw [LucasLehmer.norm_num_ext.sModNat, pow_two]

/-- the whole test -/
noncomputable def test (p : Nat) : Bool :=
  force (fun q => force (fun c => Nat.beq (loop q c (Nat.sub p 2) 4) 0) (Nat.sub q 2)) (Nat.sub (Nat.pow 2 p) 1)

theorem prime_of_test {p : Nat} (hp : 3 ≤ p) (h : test p = true) : (2 ^ p - 1).Prime := by
  rw [test, force_eq, force_eq] at h
  have h0 : loop (2 ^ p - 1) (2 ^ p - 1 - 2) (p - 2) 4 = 0 := Nat.eq_of_beq_eq_true h
  have h8 : 2 ^ 3 ≤ 2 ^ p := Nat.pow_le_pow_right (by omega) hp
  have e := loop_eq (2 ^ p - 1) (p - 2) 0
  rw [show LucasLehmer.norm_num_ext.sModNat (2 ^ p - 1) 0 = 4 from Nat.mod_eq_of_lt (by omega), h0, Nat.zero_add] at e
  apply lucas_lehmer_sufficiency p (by omega)
  rw [LucasLehmer.LucasLehmerTest, LucasLehmer.residue_eq_zero_iff_sMod_eq_zero p (by omega),
    ← LucasLehmer.norm_num_ext.sModNat_eq_sMod p _ (by omega), ← e]
  rfl

theorem prime_521 : (2 ^ 521 - 1).Prime := prime_of_test (by omega) (by decide +kernel)
theorem prime_607 : (2 ^ 607 - 1).Prime := prime_of_test (by omega) (by decide +kernel)
theorem prime_1279 : (2 ^ 1279 - 1).Prime := prime_of_test (by omega) (by decide +kernel)
theorem prime_2281 : (2 ^ 2281 - 1).Prime := prime_of_test (by omega) (by decide +kernel)
theorem prime_3217 : (2 ^ 3217 - 1).Prime := prime_of_test (by omega) (by decide +kernel)
theorem prime_4423 : (2 ^ 4423 - 1).Prime := prime_of_test (by omega) (by decide +kernel)
theorem prime_9689 : (2 ^ 9689 - 1).Prime := prime_of_test (by omega) (by decide +kernel)
theorem prime_19937 : (2 ^ 19937 - 1).Prime := prime_of_test (by omega) (by decide +kernel)

end Trng.Mersenne
