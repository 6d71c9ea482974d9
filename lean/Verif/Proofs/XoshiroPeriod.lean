import Verif.Proofs.Xoshiro
import Verif.Proofs.LinPeriod
import Verif.Proofs.Primes
import Mathlib.Algebra.Polynomial.Degree.Operations

/-! The characteristic polynomial of xoshiro256plus is primitive. -/
namespace Trng.Xoshiro
open LinAlg Spec Gf2 Polynomial

/-- the characteristic polynomial -/
def F : Nat := 0x10003c03c3f3ecb1904b4edcf26259f850280002bcefd1a5e9d116f2bb0f0f001

noncomputable def charPoly : GF2[X] := toPoly F

theorem F_bit256 : F.testBit 256 = true := by decide +kernel
theorem F_bit0 : F.testBit 0 = true := by decide +kernel
theorem F_lt : F < 2 ^ 257 := by decide +kernel

theorem F_lt' (n : Nat) (hn : 256 < n) : F < 2 ^ n :=
  Nat.lt_of_lt_of_le F_lt (Nat.pow_le_pow_right Nat.zero_lt_two (Nat.succ_le_of_lt hn))

theorem charPoly_coeff_zero : charPoly.coeff 0 = 1 := by
  rw [charPoly, coeff_toPoly, F_bit0]; rfl

theorem charPoly_natDegree : charPoly.natDegree = 256 := by
  apply natDegree_eq_of_le_of_coeff_ne_zero
  · rw [natDegree_le_iff_coeff_eq_zero]
    intro n hn
    rw [charPoly, coeff_toPoly, Nat.testBit_lt_two_pow (F_lt' n hn)]
    rfl
  · rw [charPoly, coeff_toPoly, F_bit256]
    exact one_ne_zero (α := GF2)

theorem charPoly_monic : charPoly.Monic := by
  rw [Monic, leadingCoeff, charPoly_natDegree, charPoly, coeff_toPoly, F_bit256]; rfl

/-! ### the order of `X` -/

theorem masks8 : masksOk 8 = true := by decide +kernel

theorem frob_check : xpow 8 (redDense F 256 257) 0 256 2 = some 2 := by decide +kernel

/-- the prime factors of `2^256 - 1`: those of the Fermat numbers -/
def factors : List Nat := [3, 5, 17, 257, 641, 65537, 274177, 6700417, 67280421310721, 59649589127497217,
  5704689200685129054721]

/-- the remainders of `X^((2^256-1)/q)` -/
noncomputable def facOk (q : Nat) : Bool :=
  Option.rec (motive := fun _ => Bool) false (fun r => Nat.blt r (2 ^ 256) && !(Nat.beq r 1))
    (xpow 8 (redDense F 256 257) ((2 ^ 256 - 1) / q) 256 1)

theorem fac_check : factors.all facOk = true := by decide +kernel

theorem factors_prod : factors.prod = 2 ^ 256 - 1 := by decide +kernel

theorem factors_prime : ∀ q ∈ factors, q.Prime := by
  intro q hq
  simp only [factors, List.mem_cons, List.not_mem_nil, or_false] at hq
  rcases hq with h | h | h | h | h | h | h | h | h | h | h <;> subst h
  · exact PowMod.prime_3
  · exact PowMod.prime_5
  · exact PowMod.prime_17
  · exact PowMod.prime_257
  · exact PowMod.prime_641
  · exact PowMod.prime_65537
  · exact PowMod.prime_274177
  · exact PowMod.prime_6700417
  · exact PowMod.prime_67280421310721
  · exact PowMod.prime_59649589127497217
  · exact PowMod.prime_5704689200685129054721

theorem charPoly_order : orderOf (AdjoinRoot.root charPoly) = 2 ^ 256 - 1 := by
  refine order_of_factors charPoly_monic charPoly_natDegree (by omega) charPoly_coeff_zero ?_ factors factors_prime
    factors_prod ?_
  · have h := mk_xpow (f := charPoly) masks8 (mk_redDense F 256 257) 0 256 2 2 frob_check
    have h2 : toPoly 2 = X := by rw [show (2 : Nat) = 2 ^ 1 from rfl, toPoly_two_pow, pow_one]
    rw [h2, AdjoinRoot.mk_X, Nat.zero_mod, pow_zero, mul_one] at h
    exact h.symm
  · intro q hq
    have hc := List.all_eq_true.1 fac_check q hq
    unfold facOk at hc
    cases hx : xpow 8 (redDense F 256 257) ((2 ^ 256 - 1) / q) 256 1 with
    | none => rw [hx] at hc; exact absurd hc (by decide)
    | some r =>
      rw [hx] at hc
      have hc : (Nat.blt r (2 ^ 256) && !(Nat.beq r 1)) = true := hc
      rw [Bool.and_eq_true, Nat.blt_eq, Bool.not_eq_true', ← Bool.not_eq_true, Nat.beq_eq] at hc
      refine ⟨r, hc.1, hc.2, ?_⟩
      have h := mk_xpow (f := charPoly) masks8 (mk_redDense F 256 257) _ 256 1 r hx
      rw [h, toPoly_one, map_one, one_pow, one_mul, AdjoinRoot.mk_X, Nat.mod_eq_of_lt]
      exact lt_of_le_of_lt (Nat.div_le_self _ _) (by decide +kernel)

/-! ### `f(A) v = 0` for one vector -/

/-- one step on words given as numbers, followed by the addition of `c` times the default state -/
noncomputable def stepNat {α : Type} (c : Nat) (k : Nat → Nat → Nat → Nat → α) (r0 r1 r2 r3 : Nat) : α :=
  force (fun x3 => force (fun r0' => force (fun x2 => force (fun r1' => force (fun r2' => force (fun r3' =>
    k r0' r1' r2' r3')
    (Nat.lor (Nat.mod (Nat.shiftLeft x3 45) 18446744073709551616) (Nat.shiftRight x3 19)))
    (Nat.xor x2 (Nat.mod (Nat.shiftLeft r1 17) 18446744073709551616)))
    (Nat.xor r1 x2))
    (Nat.xor r2 r0))
    (Nat.xor (Nat.xor r0 x3) (Nat.mul c 9223372036854775808)))
    (Nat.xor r3 r1)

/-- Horner's rule for the lowest `i` coefficients of `F` -/
noncomputable def hornerNat (i : Nat) : Nat → Nat → Nat → Nat → Bool :=
  Nat.rec (motive := fun _ => Nat → Nat → Nat → Nat → Bool)
    (fun r0 r1 r2 r3 => Nat.beq (Nat.add r0 (Nat.add r1 (Nat.add r2 r3))) 0)
    (fun i ih r0 r1 r2 r3 => force (fun c => stepNat c ih r0 r1 r2 r3) (Nat.land (Nat.shiftRight F i) 1)) i

theorem horner_check : hornerNat 257 0 0 0 0 = true := by decide +kernel

/-- the sum `Σ F_j A^j v` over the `i` lowest coefficients, plus `A^i e` -/
def horner (i : Nat) (e : Xoshiro) : Xoshiro :=
  match i with
  | 0 => e
  | i + 1 => horner i (add e.step (if F.testBit i then default else ⟨0, 0, 0, 0⟩))

theorem stepNat_eq {α : Type} (c : Bool) (k : Nat → Nat → Nat → Nat → α) (e : Xoshiro) :
    stepNat c.toNat k e.r0.toNat e.r1.toNat e.r2.toNat e.r3.toNat =
      (fun d : Xoshiro => k d.r0.toNat d.r1.toNat d.r2.toNat d.r3.toNat)
        (add e.step (if c then default else ⟨0, 0, 0, 0⟩)) := by
  simp only [stepNat, force_eq, step_eq, add]
  congr 1
  · rw [BitVec.toNat_xor, BitVec.toNat_xor, BitVec.toNat_xor]
    cases c <;> rfl
  · rw [BitVec.toNat_xor, BitVec.toNat_xor, BitVec.toNat_xor]
    cases c <;> exact (Nat.xor_zero _).symm
  · rw [BitVec.toNat_xor, BitVec.toNat_xor, BitVec.toNat_xor, BitVec.toNat_shiftLeft]
    cases c <;> exact (Nat.xor_zero _).symm
  · rw [BitVec.toNat_xor, rot, BitVec.toNat_or, BitVec.toNat_shiftLeft, BitVec.toNat_ushiftRight, BitVec.toNat_xor]
    cases c <;> exact (Nat.xor_zero _).symm

theorem hornerNat_eq (i : Nat) (e : Xoshiro) (h : hornerNat i e.r0.toNat e.r1.toNat e.r2.toNat e.r3.toNat = true) :
    horner i e = ⟨0, 0, 0, 0⟩ := by
  induction i generalizing e with
  | zero =>
    have h : Nat.beq (e.r0.toNat + (e.r1.toNat + (e.r2.toNat + e.r3.toNat))) 0 = true := h
    rw [Nat.beq_eq] at h
    cases e
    simp only [horner, Xoshiro.mk.injEq]
    refine ⟨?_, ?_, ?_, ?_⟩ <;> apply BitVec.eq_of_toNat_eq <;> simp at h ⊢ <;> omega
  | succ i ih =>
    have h : force (fun c => stepNat c (hornerNat i) e.r0.toNat e.r1.toNat e.r2.toNat e.r3.toNat)
      ((F >>> i) &&& 1) = true := h
    have hb : (F >>> i) &&& 1 = (F.testBit i).toNat := by rw [Nat.toNat_testBit, Nat.and_one_is_mod, Nat.shiftRight_eq_div_pow]
    rw [force_eq, hb, stepNat_eq] at h
    exact ih _ h

theorem toVector_zero : (⟨0, 0, 0, 0⟩ : Xoshiro).toVector = 0 := by
  funext k
  rw [toVector_apply]
  apply GF2.ext
  have : word (⟨0, 0, 0, 0⟩ : Xoshiro) (k.val / 64) = 0 := by simp [word]
  rw [this]
  exact BitVec.getLsbD_zero

theorem horner_toVector (i : Nat) (e : Xoshiro) : (horner i e).toVector =
    (lin ^ i) e.toVector + ∑ j ∈ Finset.range i, (⟨F.testBit j⟩ : GF2) • (lin ^ j) default.toVector := by
  induction i generalizing e with
  | zero => simp [horner]
  | succ i ih =>
    rw [horner, ih, toVector_add, map_add, Finset.sum_range_succ, ← lin_toVector, pow_succ, Module.End.mul_apply]
    have : (lin ^ i) (if F.testBit i = true then default else ⟨0, 0, 0, 0⟩ : Xoshiro).toVector =
        (⟨F.testBit i⟩ : GF2) • (lin ^ i) default.toVector := by
      cases F.testBit i with
      | true => exact (one_smul GF2 _).symm
      | false =>
        rw [if_neg (by simp), toVector_zero, map_zero]
        exact (zero_smul GF2 _).symm
    rw [this, add_assoc, add_comm ((⟨F.testBit i⟩ : GF2) • _)]

theorem sum_eq_zero_of_horner {n : Nat} (h : horner n ⟨0, 0, 0, 0⟩ = ⟨0, 0, 0, 0⟩) :
    ∑ j ∈ Finset.range n, (⟨F.testBit j⟩ : GF2) • (lin ^ j) default.toVector = 0 := by
  have h2 := horner_toVector n ⟨0, 0, 0, 0⟩
  rw [h, toVector_zero, map_zero, zero_add] at h2
  exact h2.symm

theorem aeval_default : aeval lin charPoly default.toVector = 0 := by
  have h := hornerNat_eq 257 ⟨0, 0, 0, 0⟩ horner_check
  rw [aeval_eq_sum_range' (n := 257) (by rw [charPoly_natDegree]; omega), LinearMap.sum_apply, ← sum_eq_zero_of_horner h]
  apply Finset.sum_congr rfl
  intro j _
  rw [LinearMap.smul_apply, charPoly, coeff_toPoly]

theorem card_vec : Nat.card (Fin 256 → GF2) = 2 ^ 256 := by
  rw [Nat.card_fun, card_gf2, Nat.card_fin]

theorem lin_pow_toVector (n : Nat) (e : Xoshiro) : (lin ^ n) e.toVector = (step^[n] e).toVector := by
  induction n with
  | zero => rfl
  | succ n ih => rw [pow_succ', Module.End.mul_apply, ih, lin_toVector, Function.iterate_succ_apply']

theorem default_ne : default.toVector ≠ 0 := by
  rw [← toVector_zero]
  intro h
  exact absurd (toVector_inj h) (by decide)

/-- every non-zero state is reached from the default state -/
theorem exists_iterate (e : Xoshiro) (h : e ≠ ⟨0, 0, 0, 0⟩) : ∃ i, e = step^[i] default := by
  obtain ⟨i, hi⟩ := exists_pow_apply lin charPoly_monic charPoly_natDegree (by omega) charPoly_order default_ne
    aeval_default card_vec e.toVector (fun hc => h (toVector_inj (hc.trans toVector_zero.symm)))
  rw [lin_pow_toVector] at hi
  exact ⟨i, toVector_inj hi⟩

theorem iterate_default_eq_iff (i j : Nat) : step^[i] default = step^[j] default ↔ i ≡ j [MOD 2 ^ 256 - 1] := by
  rw [← pow_apply_eq_iff lin charPoly_monic charPoly_natDegree (by omega) charPoly_coeff_zero charPoly_order default_ne
    aeval_default, lin_pow_toVector, lin_pow_toVector]
  exact ⟨fun h => by rw [h], toVector_inj⟩

theorem iterate_eq_iff (e : Xoshiro) (h : e ≠ ⟨0, 0, 0, 0⟩) (i j : Nat) :
    step^[i] e = step^[j] e ↔ i ≡ j [MOD 2 ^ 256 - 1] := by
  obtain ⟨k, rfl⟩ := exists_iterate e h
  rw [← Function.iterate_add_apply, ← Function.iterate_add_apply, iterate_default_eq_iff]
  exact ⟨fun h => Nat.ModEq.add_right_cancel' _ h, fun h => Nat.ModEq.add_right _ h⟩

/-- from every non-zero state every non-zero state is reached -/
theorem exists_iterate' (e e' : Xoshiro) (h : e ≠ ⟨0, 0, 0, 0⟩) (h' : e' ≠ ⟨0, 0, 0, 0⟩) :
    ∃ i, i < 2 ^ 256 - 1 ∧ e' = step^[i] e := by
  obtain ⟨k, rfl⟩ := exists_iterate e h
  obtain ⟨l, rfl⟩ := exists_iterate e' h'
  refine ⟨(l + (2 ^ 256 - 1) * k - k) % (2 ^ 256 - 1), Nat.mod_lt _ (by omega), ?_⟩
  rw [← Function.iterate_add_apply, iterate_default_eq_iff]
  have h1 : (l + (2 ^ 256 - 1) * k - k) % (2 ^ 256 - 1) ≡ l + (2 ^ 256 - 1) * k - k [MOD 2 ^ 256 - 1] := Nat.mod_modEq _ _
  have h2 := Nat.ModEq.add_right k h1
  rw [Nat.sub_add_cancel (by omega)] at h2
  refine (h2.trans ?_).symm
  rw [Nat.ModEq, Nat.add_mul_mod_self_left]

end Trng.Xoshiro
