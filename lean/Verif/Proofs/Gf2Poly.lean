import Verif.Proofs.LinAlg
import Mathlib.Algebra.Polynomial.Expand
import Mathlib.Algebra.Polynomial.AlgebraMap
import Mathlib.Data.Nat.Size
import Mathlib.Data.ZMod.Basic
import Mathlib.RingTheory.AdjoinRoot
import Mathlib.Algebra.CharP.Two
import Mathlib.Algebra.CharP.Algebra
import Mathlib.Data.Nat.Bitwise

/-! Polynomials over GF(2) as bit patterns: arithmetic the kernel evaluates fast.  The functions are
written with recursors and the functions on `Nat` the kernel knows; the equations one would write
down instead are stated as lemmas. -/
namespace Trng.Gf2
open LinAlg Polynomial

instance : CharP GF2 2 := charP_of_injective_ringHom (f := (GF2.equivZMod.symm : ZMod 2 →+* GF2))
  (RingEquiv.injective _) 2

/-- the polynomial with coefficient `i` the bit `i` of `a` -/
noncomputable def toPoly (a : Nat) : GF2[X] := ∑ i ∈ Finset.range a.size, C ⟨a.testBit i⟩ * X ^ i

theorem coeff_toPoly (a i : Nat) : (toPoly a).coeff i = ⟨a.testBit i⟩ := by
  rw [toPoly, finsetSum_coeff]
  simp only [coeff_C_mul, coeff_X_pow]
  by_cases h : i < a.size
  · rw [Finset.sum_eq_single i]
    · simp
    · intro j _ hj
      rw [if_neg (fun h => hj h.symm), mul_zero]
    · intro hi
      exact absurd (Finset.mem_range.2 h) hi
  · rw [Finset.sum_eq_zero]
    · have : a.testBit i = false := Nat.testBit_lt_two_pow (Nat.size_le.1 (not_lt.1 h))
      rw [this]; rfl
    · intro j hj
      rw [if_neg, mul_zero]
      have := Finset.mem_range.1 hj
      omega

theorem toPoly_xor (a b : Nat) : toPoly (a ^^^ b) = toPoly a + toPoly b := by
  ext i
  rw [coeff_add, coeff_toPoly, coeff_toPoly, coeff_toPoly, Nat.testBit_xor]
  rfl

theorem toPoly_zero : toPoly 0 = 0 := by
  ext i
  rw [coeff_toPoly, Nat.zero_testBit]; rfl

theorem toPoly_shiftLeft (a k : Nat) : toPoly (a <<< k) = toPoly a * X ^ k := by
  ext i
  rw [coeff_mul_X_pow', coeff_toPoly, coeff_toPoly, Nat.testBit_shiftLeft]
  by_cases h : k ≤ i
  · simp [h]
  · simp [h]; rfl

theorem toPoly_one : toPoly 1 = 1 := by
  ext i
  rw [coeff_toPoly, coeff_one]
  rcases Nat.eq_zero_or_pos i with h | h
  · subst h; rfl
  · rw [if_neg (by omega), Nat.testBit_lt_two_pow (Nat.one_lt_two_pow (by omega))]; rfl

theorem toPoly_two_pow (k : Nat) : toPoly (2 ^ k) = X ^ k := by
  rw [show 2 ^ k = 1 <<< k by rw [Nat.shiftLeft_eq, one_mul], toPoly_shiftLeft, toPoly_one, one_mul]

theorem add_self (p : GF2[X]) : p + p = 0 := CharTwo.add_self_eq_zero p

/-! ### squares -/

/-- blocks of `2^j` ones in every second place, `n` bits -/
def mask (n j : Nat) : Nat := Nat.div (Nat.sub (Nat.pow 2 n) 1) (Nat.succ (Nat.pow 2 (Nat.pow 2 j)))

/-- the kernel evaluates the argument before `f` is applied -/
noncomputable def force {α : Type} (f : Nat → α) (a : Nat) : α :=
  Nat.rec (motive := fun _ => α) (f 0) (fun k _ => f (Nat.succ k)) a

theorem force_eq {α : Type} (f : Nat → α) (a : Nat) : force f a = f a := by cases a <;> rfl

/-- moves bit `i` to place `2 i` (for numbers below `2^2^j`) -/
noncomputable def spread (n j : Nat) : Nat → Nat :=
  Nat.rec (motive := fun _ => Nat → Nat) (fun a => a)
    (fun j ih a => force ih (Nat.land (Nat.lor a (Nat.shiftLeft a (Nat.pow 2 j))) (mask n j))) j

theorem spread_zero (n a : Nat) : spread n 0 a = a := rfl
theorem spread_succ (n j a : Nat) : spread n (j + 1) a = spread n j ((a ||| a <<< 2 ^ j) &&& mask n j) :=
  force_eq _ _

/-- what makes a number a mask -/
def maskOk (n j : Nat) : Bool := mask n j ^^^ (mask n j <<< 2 ^ j) == 2 ^ n - 1 && n % 2 ^ (j + 1) == 0

theorem testBit_mask {n j : Nat} (h : maskOk n j = true) (p : Nat) (hp : p < n) :
    (mask n j).testBit p = decide (p / 2 ^ j % 2 = 0) := by
  rw [maskOk, Bool.and_eq_true, beq_iff_eq, beq_iff_eq] at h
  have h1 : ∀ p, p < n → (((mask n j).testBit p) ^^ (decide (2 ^ j ≤ p) && (mask n j).testBit (p - 2 ^ j))) = true := by
    intro p hp
    have := congrArg (fun z => z.testBit p) h.1
    simp only [Nat.testBit_xor, Nat.testBit_shiftLeft, Nat.testBit_two_pow_sub_one] at this
    rw [show decide (p < n) = true by simp [hp]] at this
    exact this
  have hpos : 0 < 2 ^ j := by positivity
  induction p using Nat.strong_induction_on with
  | _ p ih =>
    have hb := h1 p hp
    by_cases hlt : 2 ^ j ≤ p
    · rw [ih (p - 2 ^ j) (by omega) (by omega), show decide (2 ^ j ≤ p) = true by simp [hlt], Bool.true_and] at hb
      have hdiv : p / 2 ^ j = (p - 2 ^ j) / 2 ^ j + 1 := Nat.div_eq_sub_div hpos hlt
      rw [hdiv]
      have h2 : (p - 2 ^ j) / 2 ^ j % 2 = 0 ∨ (p - 2 ^ j) / 2 ^ j % 2 = 1 := by omega
      rcases h2 with h2 | h2
      · rw [show decide ((p - 2 ^ j) / 2 ^ j % 2 = 0) = true by simp [h2]] at hb
        rw [show decide (((p - 2 ^ j) / 2 ^ j + 1) % 2 = 0) = false by simp; omega]
        simpa using hb
      · rw [show decide ((p - 2 ^ j) / 2 ^ j % 2 = 0) = false by simp [h2]] at hb
        rw [show decide (((p - 2 ^ j) / 2 ^ j + 1) % 2 = 0) = true by simp; omega]
        simpa using hb
    · rw [show decide (2 ^ j ≤ p) = false by simp; omega] at hb
      rw [Nat.div_eq_of_lt (by omega)]
      simpa using hb

theorem mask_lt (n j : Nat) : mask n j < 2 ^ n := by
  have h1 : mask n j ≤ 2 ^ n - 1 := Nat.div_le_self _ _
  have h2 : 0 < 2 ^ n := by positivity
  omega

/-- `s` is `a` with blocks of `2^j` bits moved apart -/
def Spaced (a j s : Nat) : Prop :=
  ∀ p, s.testBit p = (decide (p / 2 ^ j % 2 = 0) && a.testBit (p / (2 * 2 ^ j) * 2 ^ j + p % 2 ^ j))

theorem div_aux {B q r : Nat} (hr : r < B) : (B * q + r) / B = q := by
  rw [Nat.mul_add_div (by omega), Nat.div_eq_of_lt hr, Nat.add_zero]

theorem mod_aux {B q r : Nat} (hr : r < B) : (B * q + r) % B = r := by
  rw [Nat.mul_add_mod, Nat.mod_eq_of_lt hr]

theorem Spaced.step {a n j s : Nat} (hs : Spaced a (j + 1) s) (hm : maskOk n j = true) (ha : a < 2 ^ (n / 2)) :
    Spaced a j ((s ||| s <<< 2 ^ j) &&& mask n j) := by
  intro p
  have hB : 0 < 2 ^ j := by positivity
  have e2 : 2 ^ (j + 1) = 2 * 2 ^ j := by rw [pow_succ, mul_comm]
  have hn : n % (2 * 2 ^ j) = 0 := by
    rw [maskOk, Bool.and_eq_true, beq_iff_eq, beq_iff_eq] at hm
    rw [← e2]; exact hm.2
  rw [Nat.testBit_and, Nat.testBit_or, Nat.testBit_shiftLeft]
  by_cases hp : p < n
  · rw [testBit_mask hm p hp]
    simp only [Spaced, e2] at hs
    generalize 2 ^ j = B at *
    obtain ⟨q, r, hr, rfl⟩ : ∃ q r, r < 2 * B ∧ p = 2 * B * q + r :=
      ⟨p / (2 * B), p % (2 * B), Nat.mod_lt _ (by omega), (Nat.div_add_mod p (2 * B)).symm⟩
    by_cases hrB : r < B
    · have d1 : (2 * B * q + r) / B = 2 * q := by
        rw [show 2 * B * q + r = B * (2 * q) + r by ring, div_aux hrB]
      have d2 : (2 * B * q + r) % B = r := by
        rw [show 2 * B * q + r = B * (2 * q) + r by ring, mod_aux hrB]
      have d3 : (2 * B * q + r) / (2 * B) = q := div_aux hr
      have d4 : ∀ q, (2 * B * q + r) / (2 * (2 * B)) = q / 2 := by
        intro q; rw [mul_comm 2 (2 * B), ← Nat.div_div_eq_div_mul, div_aux hr]
      rw [d1, d2, d3, hs (2 * B * q + r), d3, d4, mod_aux hr]
      rw [show decide (2 * q % 2 = 0) = true by simp, Bool.and_true, Bool.true_and]
      rcases Nat.eq_zero_or_pos q with h0 | h0
      · subst h0
        rw [show decide (B ≤ 2 * B * 0 + r) = false by simp; omega]
        simp
      · have d5 : 2 * B * q + r - B = 2 * B * (q - 1) + (B + r) := by
          obtain ⟨t, rfl⟩ : ∃ t, q = t + 1 := ⟨q - 1, by omega⟩
          rw [Nat.add_sub_cancel, Nat.mul_add]
          omega
        have hBle : B ≤ 2 * B * q + r := by
          have : 2 * B * 1 ≤ 2 * B * q := Nat.mul_le_mul_left _ h0
          omega
        rw [d5, hs, div_aux (show B + r < 2 * B by omega), mod_aux (show B + r < 2 * B by omega),
          show (2 * B * (q - 1) + (B + r)) / (2 * (2 * B)) = (q - 1) / 2 by
            rw [mul_comm 2 (2 * B), ← Nat.div_div_eq_div_mul, div_aux (show B + r < 2 * B by omega)],
          show decide (B ≤ 2 * B * q + r) = true by simp [hBle], Bool.true_and]
        have h2 : q % 2 = 0 ∨ q % 2 = 1 := by omega
        rcases h2 with h2 | h2
        · obtain ⟨t, rfl⟩ : ∃ t, q = 2 * t := ⟨q / 2, by omega⟩
          rw [show decide ((2 * t) % 2 = 0) = true by simp, show decide ((2 * t - 1) % 2 = 0) = false by simp; omega,
            Bool.false_and, Bool.or_false, Bool.true_and, show 2 * t / 2 = t by omega]
          congr 1; ring
        · obtain ⟨t, rfl⟩ : ∃ t, q = 2 * t + 1 := ⟨q / 2, by omega⟩
          rw [show decide ((2 * t + 1) % 2 = 0) = false by simp, Nat.add_sub_cancel,
            show decide ((2 * t) % 2 = 0) = true by simp,
            Bool.false_and, Bool.false_or, Bool.true_and, show 2 * t / 2 = t by omega]
          congr 1; ring
    · have d1 : (2 * B * q + r) / B = 2 * q + 1 := by
        rw [show 2 * B * q + r = B * (2 * q + 1) + (r - B) by
          have : B * (2 * q + 1) = 2 * B * q + B := by ring
          omega, div_aux (by omega)]
      rw [d1, show decide ((2 * q + 1) % 2 = 0) = false by simp, Bool.and_false, Bool.false_and]
  · have h1 : (mask n j).testBit p = false :=
      Nat.testBit_lt_two_pow (lt_of_lt_of_le (mask_lt n j) (Nat.pow_le_pow_right (by omega) (by omega)))
    have h2 : a.testBit (p / (2 * 2 ^ j) * 2 ^ j + p % 2 ^ j) = false := by
      apply Nat.testBit_lt_two_pow
      apply lt_of_lt_of_le ha
      apply Nat.pow_le_pow_right (by omega)
      obtain ⟨t, rfl⟩ := Nat.dvd_of_mod_eq_zero hn
      have h3 : t ≤ p / (2 * 2 ^ j) := by
        rw [Nat.le_div_iff_mul_le (by omega)]
        rw [mul_comm]; omega
      have h4 : t * 2 ^ j ≤ p / (2 * 2 ^ j) * 2 ^ j := Nat.mul_le_mul_right _ h3
      have h5 : 2 * 2 ^ j * t / 2 = t * 2 ^ j := by
        rw [mul_assoc, Nat.mul_div_cancel_left _ (by omega), mul_comm]
      omega
    rw [h1, h2, Bool.and_false, Bool.and_false]

theorem Spaced.spread {a n : Nat} (ha : a < 2 ^ (n / 2)) (j : Nat) {s : Nat} (hs : Spaced a j s)
    (hm : ∀ i, i < j → maskOk n i = true) : Spaced a 0 (spread n j s) := by
  induction j generalizing s with
  | zero => exact hs
  | succ j ih =>
    rw [spread_succ]
    exact ih (hs.step (hm j (by omega)) ha) (fun i hi => hm i (by omega))

theorem spaced_self {a j : Nat} (ha : a < 2 ^ 2 ^ j) : Spaced a j a := by
  intro p
  have hB : 0 < 2 ^ j := by positivity
  by_cases hp : p < 2 ^ j
  · rw [Nat.div_eq_of_lt hp, Nat.div_eq_of_lt (show p < 2 * 2 ^ j by omega), Nat.mod_eq_of_lt hp]
    simp
  · have h1 : a.testBit p = false :=
      Nat.testBit_lt_two_pow (lt_of_lt_of_le ha (Nat.pow_le_pow_right (by omega) (by omega)))
    rw [h1]
    by_cases hp2 : p < 2 * 2 ^ j
    · have : p / 2 ^ j = 1 := by
        rw [Nat.div_eq_iff (by omega)]; omega
      rw [this]; simp
    · have h3 : 1 ≤ p / (2 * 2 ^ j) := by rw [Nat.le_div_iff_mul_le (by omega)]; omega
      have h4 : 1 * 2 ^ j ≤ p / (2 * 2 ^ j) * 2 ^ j := Nat.mul_le_mul_right _ h3
      have h2 : a.testBit (p / (2 * 2 ^ j) * 2 ^ j + p % 2 ^ j) = false := by
        apply Nat.testBit_lt_two_pow
        exact lt_of_lt_of_le ha (Nat.pow_le_pow_right (by omega) (by omega))
      rw [h2, Bool.and_false]

/-- all masks for numbers of up to `2^j` bits are right -/
def masksOk (j : Nat) : Bool := (List.range j).all fun i => maskOk (2 ^ (j + 1)) i

/-- the square of a polynomial of degree below `2^j` -/
noncomputable def sq (j a : Nat) : Nat := spread (2 ^ (j + 1)) j a

theorem frob : frobenius GF2 2 = RingHom.id GF2 := by
  ext x
  rcases x with ⟨_ | _⟩ <;> rfl

theorem toPoly_sq {j a : Nat} (hm : masksOk j = true) (ha : a < 2 ^ 2 ^ j) : toPoly (sq j a) = toPoly a ^ 2 := by
  have h := Spaced.spread (n := 2 ^ (j + 1)) (a := a) (by rw [pow_succ, Nat.mul_div_cancel _ (by omega)]; exact ha)
    j (spaced_self ha) (fun i hi => (List.all_eq_true.1 hm) i (List.mem_range.2 hi))
  have e := map_frobenius_expand (R := GF2) (p := 2) (f := toPoly a)
  rw [frob, Polynomial.map_id] at e
  rw [← e]
  ext i
  rw [coeff_toPoly, coeff_expand (by omega), sq, h i]
  simp only [pow_zero, Nat.div_one, mul_one, Nat.mod_one, Nat.add_zero]
  by_cases hd : 2 ∣ i
  · rw [if_pos hd, coeff_toPoly, show decide (i % 2 = 0) = true by simp; omega, Bool.true_and]
  · rw [if_neg hd, show decide (i % 2 = 0) = false by simp; omega, Bool.false_and]
    rfl

/-! ### reduction -/

/-- adds `h * X^e` for all `e` in the list -/
noncomputable def addShifts (h : Nat) (es : List Nat) : Nat → Nat :=
  List.rec (motive := fun _ => Nat → Nat) (fun a => a)
    (fun e _ ih a => force ih (Nat.xor a (Nat.shiftLeft h e))) es

theorem addShifts_nil (h a : Nat) : addShifts h [] a = a := rfl
theorem addShifts_cons (h e : Nat) (es : List Nat) (a : Nat) :
    addShifts h (e :: es) a = addShifts h es (a ^^^ h <<< e) := force_eq _ _

/-- the polynomial `X^L + Σ X^e` -/
noncomputable def sparse (L : Nat) (es : List Nat) : GF2[X] := X ^ L + (es.map fun e => X ^ e).sum

/-- reduction modulo `sparse L es`, at most `k` rounds -/
noncomputable def red (L : Nat) (es : List Nat) (k : Nat) : Nat → Nat :=
  Nat.rec (motive := fun _ => Nat → Nat) (fun a => a)
    (fun _ ih a => Nat.rec (motive := fun _ => Nat) a
      (fun h _ => force ih (addShifts (Nat.succ h) es (Nat.xor a (Nat.shiftLeft (Nat.succ h) L)))) (Nat.shiftRight a L)) k

theorem red_zero (L : Nat) (es : List Nat) (a : Nat) : red L es 0 a = a := rfl
theorem red_succ (L : Nat) (es : List Nat) (k a : Nat) : red L es (k + 1) a =
    match a >>> L with
    | 0 => a
    | h + 1 => red L es k (addShifts (h + 1) es (a ^^^ (h + 1) <<< L)) := by
  show Nat.rec (motive := fun _ => Nat) a
      (fun h _ => force (red L es k) (addShifts (Nat.succ h) es (Nat.xor a (Nat.shiftLeft (Nat.succ h) L)))) (a >>> L) = _
  cases a >>> L with
  | zero => rfl
  | succ h => exact force_eq _ _

theorem toPoly_addShifts (h : Nat) (es : List Nat) (a : Nat) :
    toPoly (addShifts h es a) = toPoly a + toPoly h * (es.map fun e => X ^ e).sum := by
  induction es generalizing a with
  | nil => simp [addShifts_nil]
  | cons e es ih =>
    rw [addShifts_cons, ih, toPoly_xor, toPoly_shiftLeft, List.map_cons, List.sum_cons, mul_add, add_assoc]

theorem mk_red (L : Nat) (es : List Nat) (k a : Nat) :
    AdjoinRoot.mk (sparse L es) (toPoly (red L es k a)) = AdjoinRoot.mk (sparse L es) (toPoly a) := by
  induction k generalizing a with
  | zero => rfl
  | succ k ih =>
    rw [red_succ]
    split
    · rfl
    · rename_i h _
      rw [ih, toPoly_addShifts, toPoly_xor, toPoly_shiftLeft, add_assoc, ← mul_add]
      show AdjoinRoot.mk _ (toPoly a + toPoly (h + 1) * sparse L es) = _
      rw [map_add, map_mul, AdjoinRoot.mk_self, mul_zero, add_zero]

/-- reduction modulo the polynomial `F` of degree `L`, for polynomials of degree below `L + k` -/
noncomputable def redDense (F L k : Nat) : Nat → Nat :=
  Nat.rec (motive := fun _ => Nat → Nat) (fun a => a)
    (fun k ih a => Nat.rec (motive := fun _ => Nat) (ih a) (fun _ _ => force ih (Nat.xor a (Nat.shiftLeft F k)))
      (Nat.land (Nat.shiftRight a (Nat.add L k)) 1)) k

theorem redDense_succ (F L k a : Nat) : redDense F L (k + 1) a =
    redDense F L k (bif (a >>> (L + k)) &&& 1 == 0 then a else a ^^^ F <<< k) := by
  show Nat.rec (motive := fun _ => Nat) (redDense F L k a) (fun _ _ => force (redDense F L k) (Nat.xor a (Nat.shiftLeft F k)))
      ((a >>> (L + k)) &&& 1) = _
  cases (a >>> (L + k)) &&& 1 with
  | zero => rfl
  | succ h => exact force_eq _ _

theorem mk_redDense (F L k a : Nat) :
    AdjoinRoot.mk (toPoly F) (toPoly (redDense F L k a)) = AdjoinRoot.mk (toPoly F) (toPoly a) := by
  induction k generalizing a with
  | zero => rfl
  | succ k ih =>
    rw [redDense_succ, ih]
    cases (a >>> (L + k)) &&& 1 == 0
    · rw [cond_false, toPoly_xor, toPoly_shiftLeft, map_add, map_mul, AdjoinRoot.mk_self, zero_mul, add_zero]
    · rfl

/-! ### powers -/

/-- `acc^(2^i) * X^(E % 2^i)`, reduced with `R` after every step; `none` if some number gets too
large -/
noncomputable def xpow (j : Nat) (R : Nat → Nat) (E i : Nat) : Nat → Option Nat :=
  Nat.rec (motive := fun _ => Nat → Option Nat) (fun acc => some acc)
    (fun i ih acc => Bool.rec (motive := fun _ => Option Nat) none
      (Nat.rec (motive := fun _ => Option Nat) (force (fun b => force ih (R b)) (sq j acc))
        (fun _ _ => force (fun b => force ih (R b)) (Nat.shiftLeft (sq j acc) 1)) (Nat.land (Nat.shiftRight E i) 1))
      (Nat.ble (Nat.succ acc) (Nat.pow 2 (Nat.pow 2 j)))) i

theorem xpow_succ (j : Nat) (R : Nat → Nat) (E i acc : Nat) : xpow j R E (i + 1) acc =
    bif Nat.blt acc (2 ^ 2 ^ j) then
      xpow j R E i (R (bif E.testBit i then sq j acc <<< 1 else sq j acc))
    else none := by
  show Bool.rec (motive := fun _ => Option Nat) none
      (Nat.rec (motive := fun _ => Option Nat) (force (fun b => force (xpow j R E i) (R b)) (sq j acc))
        (fun _ _ => force (fun b => force (xpow j R E i) (R b)) (Nat.shiftLeft (sq j acc) 1)) ((E >>> i) &&& 1))
      (Nat.blt acc (2 ^ 2 ^ j)) = _
  have ht : E.testBit i = ((E >>> i) &&& 1 != 0) := by rw [Nat.testBit, Nat.and_comm]
  rw [ht]
  cases Nat.blt acc (2 ^ 2 ^ j) with
  | false => rfl
  | true =>
    cases (E >>> i) &&& 1 with
    | zero => exact (force_eq _ _).trans (force_eq _ _)
    | succ h => exact (force_eq _ _).trans (force_eq _ _)

theorem mk_xpow {f : GF2[X]} {j : Nat} (hj : masksOk j = true) {R : Nat → Nat}
    (hR : ∀ a, AdjoinRoot.mk f (toPoly (R a)) = AdjoinRoot.mk f (toPoly a)) (E i acc r : Nat)
    (h : xpow j R E i acc = some r) :
    AdjoinRoot.mk f (toPoly r) = AdjoinRoot.mk f (toPoly acc) ^ 2 ^ i * AdjoinRoot.mk f X ^ (E % 2 ^ i) := by
  induction i generalizing acc with
  | zero =>
    have h : acc = r := Option.some.inj h
    rw [h, pow_zero, pow_one, Nat.mod_one, pow_zero, mul_one]
  | succ i ih =>
    rw [xpow_succ] at h
    cases hb : Nat.blt acc (2 ^ 2 ^ j) with
    | false => rw [hb] at h; simp at h
    | true =>
      rw [hb, cond_true] at h
      have hlt : acc < 2 ^ 2 ^ j := by
        rw [Nat.blt_eq] at hb; exact hb
      rw [ih _ h, hR]
      have hmod : E % 2 ^ (i + 1) = 2 ^ i * (E.testBit i).toNat + E % 2 ^ i := by
        rw [Nat.mod_pow_succ, Nat.toNat_testBit, add_comm]
      rw [hmod, pow_add _ _ (E % 2 ^ i), ← mul_assoc]
      congr 1
      have hs : AdjoinRoot.mk f (toPoly (sq j acc)) = AdjoinRoot.mk f (toPoly acc) ^ 2 := by
        rw [toPoly_sq hj hlt, map_pow]
      cases E.testBit i with
      | false =>
        rw [cond_false, hs, ← pow_mul, ← pow_succ', Bool.toNat_false, mul_zero, pow_zero, mul_one]
      | true =>
        rw [cond_true, toPoly_shiftLeft, pow_one, map_mul, hs, mul_pow, ← pow_mul, ← pow_succ', Bool.toNat_true, mul_one]

/-- product of `a` and the polynomial of `n` bits `b`, reduced with `R` after every step -/
noncomputable def mul (R : Nat → Nat) (a b i : Nat) : Nat → Nat :=
  Nat.rec (motive := fun _ => Nat → Nat) (fun acc => acc)
    (fun i ih acc => Nat.rec (motive := fun _ => Nat) (force (fun b => force ih (R b)) (Nat.shiftLeft acc 1))
        (fun _ _ => force (fun b => force ih (R b)) (Nat.xor (Nat.shiftLeft acc 1) a))
        (Nat.land (Nat.shiftRight b i) 1)) i

theorem mul_succ (R : Nat → Nat) (a b i acc : Nat) : mul R a b (i + 1) acc =
    mul R a b i (R (bif b.testBit i then acc <<< 1 ^^^ a else acc <<< 1)) := by
  show Nat.rec (motive := fun _ => Nat) (force (fun c => force (mul R a b i) (R c)) (Nat.shiftLeft acc 1))
        (fun _ _ => force (fun c => force (mul R a b i) (R c)) (Nat.xor (Nat.shiftLeft acc 1) a)) ((b >>> i) &&& 1) = _
  have ht : b.testBit i = ((b >>> i) &&& 1 != 0) := by rw [Nat.testBit, Nat.and_comm]
  rw [ht]
  cases (b >>> i) &&& 1 with
  | zero => exact (force_eq _ _).trans (force_eq _ _)
  | succ h => exact (force_eq _ _).trans (force_eq _ _)

theorem mk_mul {f : GF2[X]} {R : Nat → Nat}
    (hR : ∀ a, AdjoinRoot.mk f (toPoly (R a)) = AdjoinRoot.mk f (toPoly a)) (a b i acc : Nat) :
    AdjoinRoot.mk f (toPoly (mul R a b i acc)) =
      AdjoinRoot.mk f (toPoly acc) * AdjoinRoot.mk f X ^ i +
        AdjoinRoot.mk f (toPoly a) * AdjoinRoot.mk f (toPoly (b % 2 ^ i)) := by
  induction i generalizing acc with
  | zero => rw [show mul R a b 0 acc = acc from rfl, pow_zero, mul_one, pow_zero, Nat.mod_one, toPoly_zero, map_zero, mul_zero, add_zero]
  | succ i ih =>
    rw [mul_succ, ih, hR]
    have hmod : b % 2 ^ (i + 1) = (b % 2 ^ i) ^^^ ((b.testBit i).toNat <<< i) := by
      apply Nat.eq_of_testBit_eq
      intro k
      rw [Nat.testBit_mod_two_pow, Nat.testBit_xor, Nat.testBit_mod_two_pow, Nat.testBit_shiftLeft]
      rcases Nat.lt_trichotomy k i with h | h | h
      · simp [h, show ¬ i ≤ k by omega, show k < i + 1 by omega]
      · subst h; cases b.testBit k <;> simp
      · have h1 : (b.testBit i).toNat.testBit (k - i) = false := by
          apply Nat.testBit_lt_two_pow
          have h2 : (b.testBit i).toNat ≤ 1 := Bool.toNat_le _
          have h3 : 1 < 2 ^ (k - i) := Nat.one_lt_two_pow (by omega)
          omega
        simp [show ¬ k < i + 1 by omega, show ¬ k < i by omega, h1]
    rw [hmod, toPoly_xor, toPoly_shiftLeft, map_add, map_mul, map_pow]
    cases b.testBit i with
    | false =>
      rw [cond_false, toPoly_shiftLeft, pow_one, map_mul, Bool.toNat_false, toPoly_zero, map_zero]
      ring
    | true =>
      rw [cond_true, toPoly_xor, toPoly_shiftLeft, pow_one, map_add, map_mul, Bool.toNat_true, toPoly_one, map_one]
      ring

/-! ### action on a module -/

theorem act_eq {V : Type} [AddCommGroup V] [Module GF2 V] (A : Module.End GF2 V) {f : GF2[X]} {v : V}
    (hv : aeval A f v = 0) {p q : GF2[X]} (h : AdjoinRoot.mk f p = AdjoinRoot.mk f q) : aeval A p v = aeval A q v := by
  obtain ⟨g, hg⟩ := AdjoinRoot.mk_eq_mk.1 h
  have : p = q + g * f := by rw [mul_comm, ← hg]; ring
  rw [this, map_add, map_mul, LinearMap.add_apply, Module.End.mul_apply, hv, map_zero, add_zero]

end Trng.Gf2
