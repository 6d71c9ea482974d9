import Verif.Proofs.Gf2Field
import Mathlib.Algebra.Order.Ring.GeomSum
import Mathlib.Algebra.Field.GeomSum
import Mathlib.Algebra.Polynomial.Inductions

/-! Products of long polynomials over GF(2) by products of natural numbers: every coefficient gets
a slot of 16 bits.  The kernel multiplies large numbers fast, so this is the quickest way to
compute with dense polynomials of degree 19937. -/
namespace Trng.Gf2
open LinAlg Polynomial

/-! ### digits of values of polynomials -/

theorem eval_divX (b : Nat) (q : ℕ[X]) : q.eval b = b * q.divX.eval b + q.coeff 0 := by
  conv_lhs => rw [← divX_mul_X_add q]
  rw [eval_add, eval_mul, eval_X, eval_C, mul_comm]

theorem eval_div_mod (b : Nat) (q : ℕ[X]) (hq : ∀ k, q.coeff k < b) (k : Nat) : q.eval b / b ^ k % b = q.coeff k := by
  induction k generalizing q with
  | zero => rw [pow_zero, Nat.div_one, eval_divX, mod_aux (hq 0)]
  | succ k ih =>
    rw [pow_succ', ← Nat.div_div_eq_div_mul, eval_divX, div_aux (hq 0), ih _ (fun k => by rw [coeff_divX]; exact hq _), coeff_divX]

/-- every number is the value of the polynomial of its digits -/
theorem exists_digits (b : Nat) (hb : 0 < b) (n A : Nat) (hA : A < b ^ n) :
    ∃ q : ℕ[X], q.eval b = A ∧ (∀ k, q.coeff k = A / b ^ k % b) ∧ ∀ k, n ≤ k → q.coeff k = 0 := by
  induction n generalizing A with
  | zero =>
    have : A = 0 := by simpa using hA
    subst this
    exact ⟨0, by simp, by simp, by simp⟩
  | succ n ih =>
    obtain ⟨q, h1, h2, h3⟩ := ih (A / b) (by rw [Nat.div_lt_iff_lt_mul hb, ← pow_succ]; exact hA)
    refine ⟨q * X + C (A % b), ?_, ?_, ?_⟩
    · rw [eval_add, eval_mul, eval_X, eval_C, h1, mul_comm, Nat.div_add_mod]
    · intro k
      cases k with
      | zero => simp
      | succ k =>
        rw [coeff_add, coeff_mul_X, coeff_C_succ, add_zero, h2, Nat.div_div_eq_div_mul, pow_succ']
    · intro k hk
      cases k with
      | zero => omega
      | succ k => rw [coeff_add, coeff_mul_X, coeff_C_succ, add_zero, h3 k (by omega)]

/-! ### slots -/

/-- the polynomial with coefficient `i` the bit `16 i` of `A` -/
noncomputable def slots (A : Nat) : GF2[X] := ∑ i ∈ Finset.range A.size, C ⟨A.testBit (16 * i)⟩ * X ^ i

theorem coeff_slots (A i : Nat) : (slots A).coeff i = ⟨A.testBit (16 * i)⟩ := by
  rw [slots, finsetSum_coeff]
  simp only [coeff_C_mul, coeff_X_pow]
  by_cases h : i < A.size
  · rw [Finset.sum_eq_single i]
    · simp
    · intro j _ hj
      rw [if_neg (fun h => hj h.symm), mul_zero]
    · intro hi
      exact absurd (Finset.mem_range.2 h) hi
  · rw [Finset.sum_eq_zero]
    · have : A.testBit (16 * i) = false := by
        apply Nat.testBit_lt_two_pow
        exact lt_of_lt_of_le (Nat.size_le.1 (not_lt.1 h)) (Nat.pow_le_pow_right (by omega) (by omega))
      rw [this]; rfl
    · intro j hj
      rw [if_neg, mul_zero]
      have := Finset.mem_range.1 hj
      omega

theorem slots_xor (A B : Nat) : slots (A ^^^ B) = slots A + slots B := by
  ext i
  rw [coeff_add, coeff_slots, coeff_slots, coeff_slots, Nat.testBit_xor]
  rfl

/-- only the lowest bits of the slots are used -/
def Slotted (A : Nat) : Prop := ∀ p, A.testBit p = true → p % 16 = 0

theorem cast_gf2 (c : Nat) : (c : GF2) = ⟨c.testBit 0⟩ := by
  induction c with
  | zero => rfl
  | succ c ih =>
    rw [Nat.cast_succ, ih, Nat.testBit_zero, Nat.testBit_zero]
    have h : c % 2 = 0 ∨ c % 2 = 1 := by omega
    rcases h with h | h
    · rw [h, show (c + 1) % 2 = 1 by omega]; rfl
    · rw [h, show (c + 1) % 2 = 0 by omega]; rfl

/-- slots without overflow -/
theorem slots_eval (q : ℕ[X]) (hq : ∀ k, q.coeff k < 2 ^ 16) : slots (q.eval (2 ^ 16)) = q.map (Nat.castRingHom GF2) := by
  ext k
  rw [coeff_slots, coeff_map, Nat.coe_castRingHom, cast_gf2, ← eval_div_mod (2 ^ 16) q hq k]
  have h0 : ∀ x : Nat, (x % 2 ^ 16).testBit 0 = x.testBit 0 := by
    intro x
    rw [Nat.testBit_zero, Nat.testBit_zero, Nat.mod_mod_of_dvd _ (by norm_num)]
  rw [h0, ← pow_mul, ← Nat.shiftRight_eq_div_pow, Nat.testBit_shiftRight, Nat.add_zero]

theorem Slotted.digits {A n : Nat} (hA : Slotted A) (hn : A < 2 ^ (16 * n)) :
    ∃ q : ℕ[X], q.eval (2 ^ 16) = A ∧ (∀ k, q.coeff k ≤ 1) ∧ ∀ k, n ≤ k → q.coeff k = 0 := by
  rw [pow_mul] at hn
  obtain ⟨q, h1, h2, h3⟩ := exists_digits (2 ^ 16) (by norm_num) n A hn
  refine ⟨q, h1, fun k => ?_, h3⟩
  rw [h2]
  by_contra hc
  have hgt : 1 < A / (2 ^ 16) ^ k % 2 ^ 16 := not_le.1 hc
  have hne : A / (2 ^ 16) ^ k % 2 ^ 16 / 2 ≠ 0 := by omega
  obtain ⟨i, hi⟩ := Nat.exists_testBit_of_ne_zero hne
  rw [Nat.testBit_div_two, Nat.testBit_mod_two_pow, ← pow_mul, ← Nat.shiftRight_eq_div_pow, Nat.testBit_shiftRight,
    Bool.and_eq_true, decide_eq_true_eq] at hi
  have := hA _ hi.2
  omega

theorem slots_mul {A B n m : Nat} (hA : Slotted A) (hB : Slotted B) (hn : A < 2 ^ (16 * n)) (hm : B < 2 ^ (16 * m))
    (h : n < 2 ^ 16) : slots (A * B) = slots A * slots B := by
  obtain ⟨p, p1, p2, p3⟩ := hA.digits hn
  obtain ⟨q, q1, q2, _⟩ := hB.digits hm
  have hp : ∀ k, p.coeff k < 2 ^ 16 := fun k => lt_of_le_of_lt (p2 k) (by norm_num)
  have hq : ∀ k, q.coeff k < 2 ^ 16 := fun k => lt_of_le_of_lt (q2 k) (by norm_num)
  have hpq : ∀ k, (p * q).coeff k < 2 ^ 16 := by
    intro k
    refine lt_of_le_of_lt ?_ h
    rw [coeff_mul, Finset.Nat.sum_antidiagonal_eq_sum_range_succ (fun i j => p.coeff i * q.coeff j)]
    calc ∑ i ∈ Finset.range k.succ, p.coeff i * q.coeff (k - i)
        ≤ ∑ i ∈ Finset.range k.succ, if i < n then 1 else 0 := by
          apply Finset.sum_le_sum
          intro i _
          split
          · calc p.coeff i * q.coeff (k - i) ≤ 1 * 1 := Nat.mul_le_mul (p2 _) (q2 _)
              _ = 1 := rfl
          · rw [p3 i (by omega), zero_mul]
      _ = ((Finset.range k.succ).filter (· < n)).card := by rw [Finset.sum_boole]; rfl
      _ ≤ (Finset.range n).card := Finset.card_le_card (fun i hi => by simp at hi ⊢; omega)
      _ = n := Finset.card_range n
  rw [← p1, ← q1, ← eval_mul, slots_eval _ hpq, slots_eval _ hp, slots_eval _ hq, Polynomial.map_mul]

/-! ### masks -/

/-- the lowest bits of `m` slots -/
def slotMask (m : Nat) : Nat := Nat.div (Nat.sub (Nat.pow 2 (Nat.mul 16 m)) 1) 65535

theorem testBit_slotMask (m p : Nat) : (slotMask m).testBit p = (decide (p % 16 = 0) && decide (p < 16 * m)) := by
  have h1 : slotMask m = (∑ k ∈ Finset.range m, X ^ k : ℕ[X]).eval (2 ^ 16) := by
    rw [eval_finsetSum]
    simp only [eval_pow, eval_X]
    rw [Nat.geomSum_eq (by norm_num), ← pow_mul]
    rfl
  have hc : ∀ k, (∑ k ∈ Finset.range m, X ^ k : ℕ[X]).coeff k = if k < m then 1 else 0 := by
    intro k
    rw [finsetSum_coeff]
    simp only [coeff_X_pow]
    rw [Finset.sum_ite_eq]
    simp
  have h2 := eval_div_mod (2 ^ 16) (∑ k ∈ Finset.range m, X ^ k : ℕ[X]) (fun k => by rw [hc]; split <;> norm_num) (p / 16)
  rw [← h1, hc] at h2
  have h3 : (slotMask m).testBit p = (slotMask m / (2 ^ 16) ^ (p / 16) % 2 ^ 16).testBit (p % 16) := by
    rw [Nat.testBit_mod_two_pow, ← pow_mul, ← Nat.shiftRight_eq_div_pow, Nat.testBit_shiftRight, Nat.div_add_mod,
      decide_eq_true (Nat.mod_lt _ (by norm_num)), Bool.true_and]
  rw [h3, h2]
  by_cases hm : p / 16 < m
  · rw [if_pos hm, decide_eq_true (show p < 16 * m by omega), Bool.and_true]
    rcases Nat.eq_zero_or_pos (p % 16) with h | h
    · rw [h]; rfl
    · rw [Nat.testBit_lt_two_pow (Nat.one_lt_two_pow (by omega)), decide_eq_false (by omega)]
  · rw [if_neg hm, Nat.zero_testBit, decide_eq_false (show ¬ p < 16 * m by omega), Bool.and_false]

theorem slotted_and (A m : Nat) : Slotted (A &&& slotMask m) := by
  intro p hp
  rw [Nat.testBit_and, testBit_slotMask, Bool.and_eq_true, Bool.and_eq_true, decide_eq_true_eq] at hp
  exact hp.2.1

theorem and_slotMask_lt (A m : Nat) : A &&& slotMask m < 2 ^ (16 * m) := by
  apply Nat.lt_pow_two_of_testBit
  intro i hi
  rw [Nat.testBit_and, testBit_slotMask, decide_eq_false (show ¬ i < 16 * m by omega), Bool.and_false, Bool.and_false]

theorem slots_and {A m : Nat} (hA : A < 2 ^ (16 * m)) : slots (A &&& slotMask m) = slots A := by
  ext i
  rw [coeff_slots, coeff_slots, Nat.testBit_and, testBit_slotMask]
  by_cases hi : 16 * i < 16 * m
  · rw [decide_eq_true hi]; simp
  · rw [Nat.testBit_lt_two_pow (lt_of_lt_of_le hA (Nat.pow_le_pow_right (by omega) (by omega))), Bool.false_and]

theorem Slotted.xor {A B : Nat} (hA : Slotted A) (hB : Slotted B) : Slotted (A ^^^ B) := by
  intro p hp
  rw [Nat.testBit_xor] at hp
  cases h : A.testBit p with
  | true => exact hA p h
  | false => rw [h, Bool.false_xor] at hp; exact hB p hp

/-! ### squaring modulo a polynomial -/

/-- `A^(2^n)` reduced modulo `P` is `B`: Barrett's reduction with the approximation `U` of
`X^(2L) / P`; `M` and `M'` are the masks, `K` is `2^(16 L)` -/
noncomputable def squares (L U P M M' K B n : Nat) : Nat → Bool :=
  Nat.rec (motive := fun _ => Nat → Bool) (fun A => Nat.beq A B)
    (fun _ ih A => force (fun S => force (fun q => force (fun r =>
        Bool.rec (motive := fun _ => Bool) false (ih r) (Nat.ble (Nat.succ r) K))
      (Nat.xor S (Nat.land (Nat.mul q P) M)))
      (Nat.land (Nat.shiftRight (Nat.mul (Nat.shiftRight S (Nat.mul 16 L)) U) (Nat.mul 16 L)) M'))
      (Nat.land (Nat.mul A A) M)) n

theorem squares_zero (L U P M M' K B A : Nat) : squares L U P M M' K B 0 A = Nat.beq A B := rfl

theorem squares_succ (L U P M M' K B n A : Nat) : ∃ q, squares L U P M M' K B (n + 1) A =
    bif Nat.blt (((A * A) &&& M) ^^^ (((q &&& M') * P) &&& M)) K then
      squares L U P M M' K B n (((A * A) &&& M) ^^^ (((q &&& M') * P) &&& M)) else false := by
  refine ⟨((((A * A) &&& M) >>> (16 * L)) * U) >>> (16 * L), ?_⟩
  generalize hq : ((((A * A) &&& M) >>> (16 * L)) * U) >>> (16 * L) = q
  have h : squares L U P M M' K B (n + 1) A =
    force (fun S => force (fun q => force (fun r =>
        Bool.rec (motive := fun _ => Bool) false (squares L U P M M' K B n r) (Nat.ble (Nat.succ r) K))
      (Nat.xor S (Nat.land (Nat.mul q P) M)))
      (Nat.land (Nat.shiftRight (Nat.mul (Nat.shiftRight S (Nat.mul 16 L)) U) (Nat.mul 16 L)) M'))
      (Nat.land (Nat.mul A A) M) := rfl
  rw [h, force_eq, force_eq, force_eq]
  have hq' : Nat.shiftRight (Nat.mul (Nat.shiftRight (Nat.land (Nat.mul A A) M) (Nat.mul 16 L)) U) (Nat.mul 16 L) = q := hq
  rw [hq']
  show Bool.rec (motive := fun _ => Bool) false _ (Nat.blt (((A * A) &&& M) ^^^ (((q &&& M') * P) &&& M)) K) = _
  cases Nat.blt (((A * A) &&& M) ^^^ (((q &&& M') * P) &&& M)) K <;> rfl

/-- what the check proves -/
theorem mk_squares {f : GF2[X]} {L U P B n A : Nat} (hL : 2 * L + 1 < 2 ^ 16) (hP : Slotted P) (hPL : P < 2 ^ (16 * (L + 1)))
    (hf : slots P = f) (hA : Slotted A) (hAL : A < 2 ^ (16 * L))
    (h : squares L U P (slotMask (2 * L + 1)) (slotMask L) (2 ^ (16 * L)) B n A = true) :
    AdjoinRoot.mk f (slots A) ^ 2 ^ n = AdjoinRoot.mk f (slots B) := by
  induction n generalizing A with
  | zero =>
    rw [squares_zero, Nat.beq_eq] at h
    rw [h, pow_zero, pow_one]
  | succ n ih =>
    obtain ⟨q, hq⟩ := squares_succ L U P (slotMask (2 * L + 1)) (slotMask L) (2 ^ (16 * L)) B n A
    rw [hq] at h
    cases hb : Nat.blt (((A * A) &&& slotMask (2 * L + 1)) ^^^ (((q &&& slotMask L) * P) &&& slotMask (2 * L + 1))) (2 ^ (16 * L)) with
    | false => rw [hb] at h; exact absurd h (by simp)
    | true =>
      rw [hb, cond_true] at h
      rw [Nat.blt_eq] at hb
      rw [pow_succ', pow_mul]
      rw [← ih ((slotted_and _ _).xor (slotted_and _ _)) hb h]
      congr 1
      have h1 : A * A < 2 ^ (16 * (2 * L + 1)) := by
        calc A * A < 2 ^ (16 * L) * 2 ^ (16 * L) := Nat.mul_lt_mul_of_lt_of_lt hAL hAL
          _ = 2 ^ (16 * L + 16 * L) := (pow_add _ _ _).symm
          _ ≤ _ := Nat.pow_le_pow_right (by omega) (by omega)
      have h2 : (q &&& slotMask L) * P < 2 ^ (16 * (2 * L + 1)) := by
        calc (q &&& slotMask L) * P < 2 ^ (16 * L) * 2 ^ (16 * (L + 1)) :=
              Nat.mul_lt_mul_of_lt_of_lt (and_slotMask_lt _ _) hPL
          _ = 2 ^ (16 * L + 16 * (L + 1)) := (pow_add _ _ _).symm
          _ ≤ _ := Nat.pow_le_pow_right (by omega) (by omega)
      rw [slots_xor, slots_and h1, slots_and h2, slots_mul hA hA hAL hAL (by omega),
        slots_mul (slotted_and _ _) hP (and_slotMask_lt _ _) hPL (by omega), hf, map_add, map_mul (AdjoinRoot.mk f) _ f,
        AdjoinRoot.mk_self, mul_zero, add_zero, map_mul, pow_two]

/-! ### from bits to slots -/

/-- moves bit `i` to place `16 i` (for numbers below `2^2^j`) -/
noncomputable def toSlots (j a : Nat) : Nat := sq (j + 3) (sq (j + 2) (sq (j + 1) (sq j a)))

theorem testBit_sq {j a : Nat} (hm : masksOk j = true) (ha : a < 2 ^ 2 ^ j) (p : Nat) :
    (sq j a).testBit p = (decide (p % 2 = 0) && a.testBit (p / 2)) := by
  have h := Spaced.spread (n := 2 ^ (j + 1)) (a := a) (by rw [pow_succ, Nat.mul_div_cancel _ (by omega)]; exact ha)
    j (spaced_self ha) (fun i hi => (List.all_eq_true.1 hm) i (List.mem_range.2 hi)) p
  rw [pow_zero, Nat.div_one, Nat.mod_one, mul_one, mul_one, Nat.add_zero] at h
  exact h

theorem sq_lt {j a : Nat} (hm : masksOk j = true) (ha : a < 2 ^ 2 ^ j) : sq j a < 2 ^ 2 ^ (j + 1) := by
  apply Nat.lt_pow_two_of_testBit
  intro i hi
  rw [testBit_sq hm ha, Nat.testBit_lt_two_pow (lt_of_lt_of_le ha (Nat.pow_le_pow_right (by omega) _)), Bool.and_false]
  rw [pow_succ] at hi
  omega

theorem testBit_toSlots {j a : Nat} (h0 : masksOk j = true) (h1 : masksOk (j + 1) = true) (h2 : masksOk (j + 2) = true)
    (h3 : masksOk (j + 3) = true) (ha : a < 2 ^ 2 ^ j) (p : Nat) :
    (toSlots j a).testBit p = (decide (p % 16 = 0) && a.testBit (p / 16)) := by
  have a1 := sq_lt h0 ha
  have a2 := sq_lt h1 a1
  have a3 := sq_lt h2 a2
  rw [toSlots, testBit_sq h3 a3, testBit_sq h2 a2, testBit_sq h1 a1, testBit_sq h0 ha,
    show p / 2 / 2 / 2 / 2 = p / 16 by omega, ← Bool.and_assoc, ← Bool.and_assoc, ← Bool.and_assoc]
  congr 1
  by_cases h : p % 16 = 0
  · rw [decide_eq_true h, decide_eq_true (show p % 2 = 0 by omega), decide_eq_true (show p / 2 % 2 = 0 by omega),
      decide_eq_true (show p / 2 / 2 % 2 = 0 by omega), decide_eq_true (show p / 2 / 2 / 2 % 2 = 0 by omega)]
    rfl
  · rw [decide_eq_false h]
    by_contra hc
    simp at hc
    omega

theorem slots_toSlots {j a : Nat} (h0 : masksOk j = true) (h1 : masksOk (j + 1) = true) (h2 : masksOk (j + 2) = true)
    (h3 : masksOk (j + 3) = true) (ha : a < 2 ^ 2 ^ j) : slots (toSlots j a) = toPoly a := by
  ext i
  rw [coeff_slots, coeff_toPoly, testBit_toSlots h0 h1 h2 h3 ha, Nat.mul_div_cancel_left _ (by omega), Nat.mul_mod_right]
  rfl

theorem slotted_toSlots {j a : Nat} (h0 : masksOk j = true) (h1 : masksOk (j + 1) = true) (h2 : masksOk (j + 2) = true)
    (h3 : masksOk (j + 3) = true) (ha : a < 2 ^ 2 ^ j) : Slotted (toSlots j a) := by
  intro p hp
  rw [testBit_toSlots h0 h1 h2 h3 ha, Bool.and_eq_true, decide_eq_true_eq] at hp
  exact hp.1

theorem toSlots_lt {j a : Nat} (h0 : masksOk j = true) (h1 : masksOk (j + 1) = true) (h2 : masksOk (j + 2) = true)
    (h3 : masksOk (j + 3) = true) (ha : a < 2 ^ 2 ^ j) {L : Nat} (hL : a < 2 ^ L) : toSlots j a < 2 ^ (16 * L) := by
  apply Nat.lt_pow_two_of_testBit
  intro i hi
  rw [testBit_toSlots h0 h1 h2 h3 ha, Nat.testBit_lt_two_pow (lt_of_lt_of_le hL (Nat.pow_le_pow_right (by omega) (by omega))),
    Bool.and_false]

/-- the check with bit patterns: `a^(2^n)` modulo `F` is `b`, for a polynomial `F` of degree `L` -/
noncomputable def frobCheck (j L U F a b n : Nat) : Bool :=
  Bool.rec (motive := fun _ => Bool) false
    (force (fun U => force (fun P => force (fun M => force (fun M' => force (fun K => force (fun B => force (fun A =>
      squares L U P M M' K B n A) (toSlots j a)) (toSlots j b)) (Nat.pow 2 (Nat.mul 16 L))) (slotMask L))
      (slotMask (Nat.succ (Nat.mul 2 L)))) (toSlots j F)) (toSlots j U))
    (Nat.ble (Nat.succ a) (Nat.pow 2 L) && Nat.ble (Nat.succ b) (Nat.pow 2 L) && Nat.ble (Nat.succ F) (Nat.pow 2 (Nat.succ L)) &&
      Nat.ble (Nat.succ L) (Nat.pow 2 j) && Nat.ble (2 * L + 2) 65536)

structure Masks (j : Nat) : Prop where
  m0 : masksOk j = true
  m1 : masksOk (j + 1) = true
  m2 : masksOk (j + 2) = true
  m3 : masksOk (j + 3) = true

theorem mk_frobCheck {j L U F a b n : Nat} (hm : Masks j) (h : frobCheck j L U F a b n = true) :
    AdjoinRoot.mk (toPoly F) (toPoly a) ^ 2 ^ n = AdjoinRoot.mk (toPoly F) (toPoly b) := by
  rw [frobCheck] at h
  cases hc : (Nat.ble (Nat.succ a) (Nat.pow 2 L) && Nat.ble (Nat.succ b) (Nat.pow 2 L) && Nat.ble (Nat.succ F) (Nat.pow 2 (Nat.succ L)) &&
      Nat.ble (Nat.succ L) (Nat.pow 2 j) && Nat.ble (2 * L + 2) 65536) with
  | false => rw [hc] at h; exact absurd h (by simp)
  | true =>
    rw [hc] at h
    simp only [Bool.and_eq_true, Nat.ble_eq] at hc
    obtain ⟨⟨⟨⟨ha, hb⟩, hF⟩, hj⟩, hL⟩ := hc
    have ha : a < 2 ^ L := ha
    have hb : b < 2 ^ L := hb
    have hF : F < 2 ^ (L + 1) := hF
    have hj : L + 1 ≤ 2 ^ j := hj
    have hLj : 2 ^ L ≤ 2 ^ 2 ^ j := Nat.pow_le_pow_right (by omega) (by omega)
    have hLj' : 2 ^ (L + 1) ≤ 2 ^ 2 ^ j := Nat.pow_le_pow_right (by omega) hj
    have h : (force (fun U => force (fun P => force (fun M => force (fun M' => force (fun K => force (fun B => force (fun A =>
      squares L U P M M' K B n A) (toSlots j a)) (toSlots j b)) (Nat.pow 2 (Nat.mul 16 L))) (slotMask L))
      (slotMask (Nat.succ (Nat.mul 2 L)))) (toSlots j F)) (toSlots j U)) = true := h
    simp only [force_eq] at h
    have key := mk_squares (f := toPoly F) (by omega) (slotted_toSlots hm.m0 hm.m1 hm.m2 hm.m3 (lt_of_lt_of_le hF hLj'))
      (toSlots_lt hm.m0 hm.m1 hm.m2 hm.m3 (lt_of_lt_of_le hF hLj') hF)
      (slots_toSlots hm.m0 hm.m1 hm.m2 hm.m3 (lt_of_lt_of_le hF hLj'))
      (slotted_toSlots hm.m0 hm.m1 hm.m2 hm.m3 (lt_of_lt_of_le ha hLj))
      (toSlots_lt hm.m0 hm.m1 hm.m2 hm.m3 (lt_of_lt_of_le ha hLj) ha) h
    rw [slots_toSlots hm.m0 hm.m1 hm.m2 hm.m3 (lt_of_lt_of_le ha hLj),
      slots_toSlots hm.m0 hm.m1 hm.m2 hm.m3 (lt_of_lt_of_le hb hLj)] at key
    exact key

end Trng.Gf2
