import Verif.Model.Xoshiro
import Verif.Proofs.LinAlg
import Verif.Proofs.Engine
import Mathlib.LinearAlgebra.Pi
import Mathlib.Data.BitVec

/-! The transition of xoshiro256plus as a linear map. -/
namespace Trng.Xoshiro
open LinAlg Spec

/-- addition of states -/
def add (e f : Xoshiro) : Xoshiro := ⟨e.r0 ^^^ f.r0, e.r1 ^^^ f.r1, e.r2 ^^^ f.r2, e.r3 ^^^ f.r3⟩

def rot (x : BitVec 64) : BitVec 64 := (x <<< 45) ||| (x >>> (64 - 45))

theorem getLsbD_rot (x : BitVec 64) (i : Nat) (hi : i < 64) : (rot x).getLsbD i = x.getLsbD ((i + 19) % 64) := by
  rw [rot, BitVec.getLsbD_or, BitVec.getLsbD_shiftLeft, BitVec.getLsbD_ushiftRight]
  by_cases h : i < 45
  · simp only [hi, h, decide_true, Bool.not_true, Bool.and_false, Bool.false_and, Bool.false_or]
    congr 1; omega
  · have h64 : x.getLsbD (64 - 45 + i) = false := BitVec.getLsbD_of_ge _ _ (by omega)
    rw [h64]
    simp only [hi, h, decide_true, decide_false, Bool.not_false, Bool.and_true, Bool.true_and, Bool.or_false]
    congr 1; omega

theorem rot_xor (x y : BitVec 64) : rot (x ^^^ y) = rot x ^^^ rot y := by
  apply BitVec.eq_of_getLsbD_eq
  intro i hi
  rw [BitVec.getLsbD_xor, getLsbD_rot _ _ hi, getLsbD_rot _ _ hi, getLsbD_rot _ _ hi, BitVec.getLsbD_xor]

/-- rotation in the other direction -/
def rotInv (x : BitVec 64) : BitVec 64 := (x >>> 45) ||| (x <<< (64 - 45))

theorem getLsbD_rotInv (x : BitVec 64) (i : Nat) (hi : i < 64) : (rotInv x).getLsbD i = x.getLsbD ((i + 45) % 64) := by
  rw [rotInv, BitVec.getLsbD_or, BitVec.getLsbD_shiftLeft, BitVec.getLsbD_ushiftRight]
  by_cases h : i < 19
  · simp only [hi, show i < 64 - 45 from h, decide_true, Bool.not_true, Bool.and_false, Bool.false_and, Bool.or_false]
    congr 1; omega
  · have h64 : x.getLsbD (45 + i) = false := BitVec.getLsbD_of_ge _ _ (by omega)
    rw [h64]
    simp only [hi, show ¬ i < 64 - 45 from h, decide_true, decide_false, Bool.not_false, Bool.true_and, Bool.false_or]
    congr 1; omega

theorem rotInv_rot (x : BitVec 64) : rotInv (rot x) = x := by
  apply BitVec.eq_of_getLsbD_eq
  intro i hi
  rw [getLsbD_rotInv _ _ hi, getLsbD_rot _ _ (Nat.mod_lt _ (by omega))]
  congr 1; omega

theorem rot_rotInv (x : BitVec 64) : rot (rotInv x) = x := by
  apply BitVec.eq_of_getLsbD_eq
  intro i hi
  rw [getLsbD_rot _ _ hi, getLsbD_rotInv _ _ (Nat.mod_lt _ (by omega))]
  congr 1; omega

theorem step_eq (e : Xoshiro) : e.step = ⟨e.r0 ^^^ (e.r3 ^^^ e.r1), e.r1 ^^^ (e.r2 ^^^ e.r0),
    e.r2 ^^^ e.r0 ^^^ e.r1 <<< 17, rot (e.r3 ^^^ e.r1)⟩ := rfl

theorem xor4 (a b c d : BitVec 64) : (a ^^^ b) ^^^ (c ^^^ d) = (a ^^^ c) ^^^ (b ^^^ d) := by
  rw [BitVec.xor_assoc, BitVec.xor_assoc]
  congr 1
  rw [← BitVec.xor_assoc, ← BitVec.xor_assoc, BitVec.xor_comm b c]

theorem step_add (e f : Xoshiro) : (add e f).step = add e.step f.step := by
  simp only [step_eq, add, BitVec.shiftLeft_xor_distrib]
  congr 1
  · rw [xor4 e.r3, xor4]
  · rw [xor4 e.r2, xor4]
  · rw [xor4 e.r2, xor4]
  · rw [xor4 e.r3, rot_xor]

/-! ### the inverse -/

/-- solves `x ^ (x << 17) = y` -/
def unshift (y : BitVec 64) : BitVec 64 := y ^^^ y <<< 17 ^^^ y <<< 34 ^^^ y <<< 51

theorem unshift_eq (x : BitVec 64) : unshift (x ^^^ x <<< 17) = x := by
  apply BitVec.eq_of_getLsbD_eq
  intro i hi
  simp only [unshift, BitVec.getLsbD_xor, BitVec.getLsbD_shiftLeft, hi, decide_true, Bool.true_and]
  by_cases h1 : i < 17
  · simp [h1, show i < 34 by omega, show i < 51 by omega]
  · by_cases h2 : i < 34
    · simp [h1, h2, show i < 51 by omega, show i - 17 < 64 by omega, show i - 17 < 17 by omega]
    · by_cases h3 : i < 51
      · simp [h1, h2, h3, show i - 17 < 64 by omega, show ¬ i - 17 < 17 by omega, show i - 34 < 64 by omega,
          show i - 34 < 17 by omega, show i - 17 - 17 = i - 34 by omega]
      · simp [h1, h2, h3, show i - 17 < 64 by omega, show ¬ i - 17 < 17 by omega, show i - 34 < 64 by omega,
          show ¬ i - 34 < 17 by omega, show i - 17 - 17 = i - 34 by omega, show i - 34 - 17 = i - 51 by omega,
          show i - 51 < 64 by omega, show i - 51 < 17 by omega]

theorem shift_unshift (y : BitVec 64) : unshift y ^^^ unshift y <<< 17 = y := by
  apply BitVec.eq_of_getLsbD_eq
  intro i hi
  simp only [unshift, BitVec.getLsbD_xor, BitVec.getLsbD_shiftLeft, hi, decide_true, Bool.true_and]
  by_cases h1 : i < 17
  · simp [h1, show i < 34 by omega, show i < 51 by omega]
  · by_cases h2 : i < 34
    · simp [h1, h2, show i < 51 by omega, show i - 17 < 64 by omega, show i - 17 < 17 by omega,
        show i - 17 < 34 by omega, show i - 17 < 51 by omega]
    · by_cases h3 : i < 51
      · simp [h1, h2, h3, show i - 17 < 64 by omega, show ¬ i - 17 < 17 by omega,
          show i - 17 < 34 by omega, show i - 17 < 51 by omega, show i - 17 - 17 = i - 34 by omega,
          show i - 34 < 64 by omega]
      · simp [h1, h2, h3, show i - 17 < 64 by omega, show ¬ i - 17 < 17 by omega,
          show ¬ i - 17 < 34 by omega, show i - 17 < 51 by omega, show i - 17 - 17 = i - 34 by omega,
          show i - 17 - 34 = i - 51 by omega, show i - 34 < 64 by omega, show i - 51 < 64 by omega]

/-- the inverse of `step` -/
def back (e : Xoshiro) : Xoshiro :=
  let r3' := rotInv e.r3
  let r0 := e.r0 ^^^ r3'
  let r1 := unshift (e.r1 ^^^ e.r2)
  let r2' := e.r1 ^^^ r1
  ⟨r0, r1, r2' ^^^ r0, r3' ^^^ r1⟩

theorem xor_cancel_mid (a b : BitVec 64) : a ^^^ b ^^^ b = a := by
  rw [BitVec.xor_assoc, BitVec.xor_self, BitVec.xor_zero]

theorem xor_cancel_left (a b : BitVec 64) : a ^^^ (a ^^^ b) = b := by
  rw [← BitVec.xor_assoc, BitVec.xor_self, BitVec.zero_xor]

theorem back_step (e : Xoshiro) : e.step.back = e := by
  rw [step_eq]
  simp only [back, rotInv_rot, xor_cancel_mid]
  have h1 : e.r1 ^^^ (e.r2 ^^^ e.r0) ^^^ (e.r2 ^^^ e.r0 ^^^ e.r1 <<< 17) = e.r1 ^^^ e.r1 <<< 17 := by
    rw [BitVec.xor_assoc, xor_cancel_left]
  rw [h1, unshift_eq]
  have h2 : e.r1 ^^^ (e.r2 ^^^ e.r0) ^^^ e.r1 = e.r2 ^^^ e.r0 := by
    rw [BitVec.xor_comm e.r1, xor_cancel_mid]
  rw [h2, xor_cancel_mid, xor_cancel_mid]

theorem step_back (e : Xoshiro) : e.back.step = e := by
  rw [step_eq]
  simp only [back, xor_cancel_mid, rot_rotInv]
  have h1 : unshift (e.r1 ^^^ e.r2) ^^^ (e.r1 ^^^ unshift (e.r1 ^^^ e.r2)) = e.r1 := by
    rw [BitVec.xor_comm e.r1 (unshift _), xor_cancel_left]
  have h2 : e.r1 ^^^ unshift (e.r1 ^^^ e.r2) ^^^ unshift (e.r1 ^^^ e.r2) <<< 17 = e.r2 := by
    rw [BitVec.xor_assoc, shift_unshift, xor_cancel_left]
  rw [h1, h2]

theorem step_bijective : Function.Bijective step :=
  ⟨Function.LeftInverse.injective back_step, Function.RightInverse.surjective step_back⟩

theorem step_zero : step ⟨0, 0, 0, 0⟩ = ⟨0, 0, 0, 0⟩ := by decide

theorem afterCalls_eq (n : Nat) (e : Xoshiro) : afterCalls call n e = step^[n] e := afterCalls_eq_iterate call n e

theorem repeat_eq (n : Nat) (e : Xoshiro) : Nat.repeat step n e = step^[n] e := by
  induction n with
  | zero => rfl
  | succ n ih => rw [Nat.repeat, ih, Function.iterate_succ_apply']

theorem iterate_ne_zero {e : Xoshiro} (h : e ≠ ⟨0, 0, 0, 0⟩) (n : Nat) : step^[n] e ≠ ⟨0, 0, 0, 0⟩ := by
  induction n with
  | zero => exact h
  | succ n ih =>
    rw [Function.iterate_succ_apply']
    intro hc
    exact ih (step_bijective.1 (hc.trans step_zero.symm))

/-! ### bit vectors -/

/-- word number `j` of the state -/
def word (e : Xoshiro) (j : Nat) : BitVec 64 :=
  if j = 0 then e.r0 else if j = 1 then e.r1 else if j = 2 then e.r2 else e.r3

theorem shl_and_top (r : BitVec 64) (i : Nat) (hi : i < 64) :
    decide (((r <<< i) &&& (1#64 <<< 63)) > 0) = r.getLsbD (63 - i) := by
  have h1 : (r <<< i) &&& (1#64 <<< 63) = if r.getLsbD (63 - i) then 1#64 <<< 63 else 0 := by
    apply BitVec.eq_of_getLsbD_eq
    intro k hk
    rw [BitVec.getLsbD_and, BitVec.getLsbD_shiftLeft, BitVec.getLsbD_shiftLeft, BitVec.getLsbD_one]
    by_cases h63 : k = 63
    · subst h63
      cases hr : r.getLsbD (63 - i)
      · simp
      · simp; omega
    · have : k < 63 := by omega
      cases hr : r.getLsbD (63 - i)
      · simp [this]
      · rw [if_pos rfl, BitVec.getLsbD_shiftLeft]; simp [this]
  rw [h1]
  cases r.getLsbD (63 - i) <;> decide

theorem toVector_apply (e : Xoshiro) (k : Fin 256) :
    e.toVector k = ⟨(word e (k.val / 64)).getLsbD (63 - k.val % 64)⟩ := by
  have hk := k.isLt
  simp only [toVector]
  rw [shl_and_top _ _ (Nat.mod_lt _ (by omega))]
  congr 2
  simp only [word]
  have : k.val / 64 = 0 ∨ k.val / 64 = 1 ∨ k.val / 64 = 2 ∨ k.val / 64 = 3 := by omega
  rcases this with h | h | h | h
  · rw [h, if_pos (by omega)]; rfl
  · rw [h, if_neg (by omega), if_pos (by omega)]; rfl
  · rw [h, if_neg (by omega), if_neg (by omega), if_pos (by omega)]; rfl
  · rw [h, if_neg (by omega), if_neg (by omega), if_neg (by omega)]; rfl

theorem ext_word {e f : Xoshiro} (h : ∀ j, j < 4 → word e j = word f j) : e = f := by
  cases e; cases f
  have h0 := h 0 (by omega)
  have h1 := h 1 (by omega)
  have h2 := h 2 (by omega)
  have h3 := h 3 (by omega)
  simp [word] at h0 h1 h2 h3
  simp [h0, h1, h2, h3]

theorem toVector_inj {e f : Xoshiro} (h : e.toVector = f.toVector) : e = f := by
  apply ext_word
  intro j hj
  apply BitVec.eq_of_getLsbD_eq
  intro i hi
  have := congrFun h ⟨j * 64 + (63 - i), by omega⟩
  rw [toVector_apply, toVector_apply] at this
  have h1 : (j * 64 + (63 - i)) / 64 = j := by omega
  have h2 : 63 - (j * 64 + (63 - i)) % 64 = i := by omega
  simp only [h1, h2] at this
  exact congrArg GF2.value this

theorem getLsbD_build (b : Nat → Bool) (n : Nat) (hn : n ≤ 64) (i : Nat) :
    ((List.range n).foldl (fun (r : BitVec 64) k =>
      let r := r <<< 1
      if b k then r ||| 1 else r) 0).getLsbD i = (decide (i < n) && b (n - 1 - i)) := by
  induction n generalizing i with
  | zero => simp
  | succ n ih =>
    rw [List.range_succ, List.foldl_append, List.foldl_cons, List.foldl_nil]
    set r := (List.range n).foldl (fun (r : BitVec 64) k =>
      let r := r <<< 1
      if b k then r ||| 1 else r) 0 with hr
    have ih' := fun i => ih (by omega) i
    have hor : ∀ c : Bool, (if c = true then r <<< 1 ||| 1#64 else r <<< 1).getLsbD i =
        if i = 0 then c else r.getLsbD (i - 1) && decide (i < 64) := by
      intro c
      cases c with
      | true =>
        rw [if_pos rfl, BitVec.getLsbD_or, BitVec.getLsbD_shiftLeft, BitVec.getLsbD_one]
        rcases Nat.eq_zero_or_pos i with h0 | h0
        · subst h0; simp
        · rw [if_neg (by omega)]
          have : ¬ i < 1 := by omega
          simp [this, show ¬ (i = 0) by omega, Bool.and_comm]
      | false =>
        rw [if_neg (by simp), BitVec.getLsbD_shiftLeft]
        rcases Nat.eq_zero_or_pos i with h0 | h0
        · subst h0; simp
        · rw [if_neg (by omega)]
          have : ¬ i < 1 := by omega
          simp [this, Bool.and_comm]
    refine (hor (b n)).trans ?_
    rcases Nat.eq_zero_or_pos i with h0 | h0
    · subst h0; simp
    · rw [if_neg (by omega), ih']
      by_cases hi : i < n + 1
      · rw [show n - 1 - (i - 1) = n + 1 - 1 - i by omega]
        simp [hi, show i - 1 < n by omega, show i < 64 by omega]
      · simp [hi, show ¬ i - 1 < n by omega]

theorem toVector_fromVector (v : Vec GF2 256) : (fromVector v).toVector = v := by
  funext k
  have hk := k.isLt
  rw [toVector_apply]
  have hw : ∀ j (_ : j < 4) i (_ : i < 64), (word (fromVector v) j).getLsbD (63 - i) = (v ⟨i + 64 * j, by omega⟩).value := by
    intro j hj i hi
    have e1 : word (fromVector v) j = (List.range 64).foldl (fun (r : BitVec 64) k =>
        let r := r <<< 1
        if (if h : k < 64 then (v ⟨k + 64 * j, by omega⟩).value else false) then r ||| 1 else r) 0 := by
      rw [← List.map_coe_finRange_eq_range, List.foldl_map]
      have : word (fromVector v) j = buildWord v ⟨j, hj⟩ := by
        have hj' : j = 0 ∨ j = 1 ∨ j = 2 ∨ j = 3 := by omega
        rcases hj' with h | h | h | h <;> subst h <;> simp only [word, fromVector] <;> rfl
      rw [this, buildWord]
      congr 1
      funext r i
      have hi := i.isLt
      simp only [hi, dif_pos]
    rw [e1, getLsbD_build _ _ le_rfl]
    simp only [show 63 - i < 64 by omega, decide_true, Bool.true_and, show 64 - 1 - (63 - i) = i by omega, hi, dif_pos]
  rw [hw (k.val / 64) (by omega) (k.val % 64) (by omega)]
  have : (⟨k.val % 64 + 64 * (k.val / 64), by omega⟩ : Fin 256) = k := Fin.ext (Nat.mod_add_div _ _)
  rw [this]

theorem fromVector_toVector (e : Xoshiro) : fromVector e.toVector = e :=
  toVector_inj (toVector_fromVector _)

theorem toVector_add (e f : Xoshiro) : (add e f).toVector = e.toVector + f.toVector := by
  funext k
  rw [Pi.add_apply, toVector_apply, toVector_apply, toVector_apply]
  apply GF2.ext
  rw [GF2.add_value]
  have : word (add e f) (k.val / 64) = word e (k.val / 64) ^^^ word f (k.val / 64) := by
    simp only [word, add]
    split
    · rfl
    · split
      · rfl
      · split <;> rfl
  rw [this, BitVec.getLsbD_xor]

theorem toVector_eye (i : Fin 256) : (eye i.val).toVector = Pi.single i 1 := by
  funext k
  have hk := k.isLt
  have hi := i.isLt
  rw [toVector_apply]
  have hw : word (eye i.val) (k.val / 64) = if k.val / 64 = i.val / 64 then (1#64 <<< 63) >>> (i.val % 64) else 0 := by
    by_cases h1 : i.val < 64
    · have e1 : eye i.val = ⟨(1#64 <<< 63) >>> i.val, 0, 0, 0⟩ := by simp [eye, h1]
      rw [e1, show i.val / 64 = 0 by omega, show i.val % 64 = i.val by omega]
      have : k.val / 64 = 0 ∨ k.val / 64 = 1 ∨ k.val / 64 = 2 ∨ k.val / 64 = 3 := by omega
      rcases this with h | h | h | h <;> rw [h] <;> simp [word]
    · by_cases h2 : i.val < 128
      · have e1 : eye i.val = ⟨0, (1#64 <<< 63) >>> (i.val - 64), 0, 0⟩ := by simp [eye, h1, h2]
        rw [e1, show i.val / 64 = 1 by omega, show i.val % 64 = i.val - 64 by omega]
        have : k.val / 64 = 0 ∨ k.val / 64 = 1 ∨ k.val / 64 = 2 ∨ k.val / 64 = 3 := by omega
        rcases this with h | h | h | h <;> rw [h] <;> simp [word]
      · by_cases h3 : i.val < 192
        · have e1 : eye i.val = ⟨0, 0, (1#64 <<< 63) >>> (i.val - 128), 0⟩ := by simp [eye, h1, h2, h3]
          rw [e1, show i.val / 64 = 2 by omega, show i.val % 64 = i.val - 128 by omega]
          have : k.val / 64 = 0 ∨ k.val / 64 = 1 ∨ k.val / 64 = 2 ∨ k.val / 64 = 3 := by omega
          rcases this with h | h | h | h <;> rw [h] <;> simp [word]
        · have e1 : eye i.val = ⟨0, 0, 0, (1#64 <<< 63) >>> (i.val - 192)⟩ := by simp [eye, h1, h2, h3]
          rw [e1, show i.val / 64 = 3 by omega, show i.val % 64 = i.val - 192 by omega]
          have : k.val / 64 = 0 ∨ k.val / 64 = 1 ∨ k.val / 64 = 2 ∨ k.val / 64 = 3 := by omega
          rcases this with h | h | h | h <;> rw [h] <;> simp [word]
  rw [hw, Pi.single_apply]
  apply GF2.ext
  by_cases h : k.val / 64 = i.val / 64
  · rw [if_pos h]
    show ((1#64 <<< 63) >>> (i.val % 64)).getLsbD (63 - k.val % 64) = _
    rw [BitVec.getLsbD_ushiftRight, BitVec.getLsbD_shiftLeft, BitVec.getLsbD_one]
    by_cases hki : k = i
    · rw [if_pos hki, hki]
      have : i.val % 64 + (63 - i.val % 64) = 63 := by omega
      rw [this]
      rfl
    · rw [if_neg hki]
      have hne : k.val % 64 ≠ i.val % 64 := by
        intro hc
        apply hki
        apply Fin.ext
        have := Nat.mod_add_div k.val 64
        have := Nat.mod_add_div i.val 64
        omega
      rw [GF2.zero_value]
      rcases Nat.lt_or_ge (i.val % 64 + (63 - k.val % 64)) 63 with h1 | h1
      · simp [h1]
      · simp; omega
  · rw [if_neg h, if_neg (fun hc => h (by rw [hc]))]
    show (0 : BitVec 64).getLsbD _ = _
    rw [GF2.zero_value]
    exact BitVec.getLsbD_zero

/-- The transition on bit vectors, as a linear map. -/
def lin : (Fin 256 → GF2) →ₗ[GF2] (Fin 256 → GF2) where
  toFun v := (step (fromVector v)).toVector
  map_add' u v := by
    have : fromVector (u + v) = add (fromVector u) (fromVector v) := by
      apply toVector_inj
      rw [toVector_add, toVector_fromVector, toVector_fromVector, toVector_fromVector]
    rw [this, step_add, toVector_add]
  map_smul' c v := by
    have hz : (step (fromVector (0 : Fin 256 → GF2))).toVector = 0 := by
      have h0 : fromVector (0 : Fin 256 → GF2) = ⟨0, 0, 0, 0⟩ := by
        apply toVector_inj
        rw [toVector_fromVector]
        funext k
        rw [toVector_apply]
        apply GF2.ext
        have : word (⟨0, 0, 0, 0⟩ : Xoshiro) (k.val / 64) = 0 := by simp [word]
        rw [this]
        show false = (0 : BitVec 64).getLsbD _
        exact BitVec.getLsbD_zero.symm
      rw [h0, step_zero, ← h0, toVector_fromVector]
    have hc : c = 0 ∨ c = 1 := by rcases c with ⟨_ | _⟩; exact Or.inl rfl; exact Or.inr rfl
    rcases hc with h | h
    · subst h; rw [zero_smul, hz, map_zero, zero_smul]
    · subst h; simp

theorem lin_toVector (e : Xoshiro) : lin e.toVector = e.step.toVector := by
  show (step (fromVector e.toVector)).toVector = _
  rw [fromVector_toVector]

theorem matrix_get (j i : Fin 256) : matrix.get j i = (eye i.val).step.toVector j := by
  have key : ∀ (l : List (Fin 256)) (M : Mat GF2 256), (l.foldl (fun M i =>
      let v := (eye i.val).step.toVector
      (List.finRange 256).foldl (fun M j => M.set j i (v j)) M) M).get j i =
      if i ∈ l then (eye i.val).step.toVector j else M.get j i := by
    intro l
    induction l with
    | nil => intro M; simp
    | cons a l ih =>
      intro M
      rw [List.foldl_cons, ih]
      by_cases hi : i ∈ l
      · rw [if_pos hi, if_pos (List.mem_cons_of_mem _ hi)]
      · rw [if_neg hi]
        have inner : ∀ (l' : List (Fin 256)) (M : Mat GF2 256),
            (l'.foldl (fun M j => M.set j a ((eye a.val).step.toVector j)) M).get j i =
            if j ∈ l' ∧ i = a then (eye a.val).step.toVector j else M.get j i := by
          intro l'
          induction l' with
          | nil => intro M; simp
          | cons b l' ih' =>
            intro M
            rw [List.foldl_cons, ih', Mat.get_set]
            by_cases ha : i = a
            · by_cases hj : j ∈ l'
              · rw [if_pos ⟨hj, ha⟩, if_pos ⟨List.mem_cons_of_mem _ hj, ha⟩]
              · rw [if_neg (fun h => hj h.1)]
                by_cases hb : j = b
                · rw [if_pos ⟨hb, ha⟩, if_pos ⟨hb ▸ List.mem_cons_self, ha⟩, hb]
                · rw [if_neg (fun h => hb h.1), if_neg]
                  rintro ⟨h, _⟩
                  exact (List.mem_cons.1 h).elim hb hj
            · rw [if_neg (fun h => ha h.2), if_neg (fun h => ha h.2), if_neg (fun h => ha h.2)]
        simp only
        rw [inner]
        by_cases ha : i = a
        · rw [if_pos ⟨List.mem_finRange _, ha⟩, if_pos (ha ▸ List.mem_cons_self), ha]
        · rw [if_neg (fun h => ha h.2), if_neg]
          exact fun h => (List.mem_cons.1 h).elim ha hi
  rw [matrix, key, if_pos (List.mem_finRange _)]

theorem toMatrix_mulVec_apply {n : Nat} (A : Mat GF2 n) (v : Fin n → GF2) (j : Fin n) :
    (toMatrix A).mulVec v j = ∑ i, A.get j i * v i := rfl

/-- Multiplication with the matrix is one step. -/
theorem matrix_mulVec (e : Xoshiro) : (toMatrix matrix).mulVec e.toVector = e.step.toVector := by
  rw [← lin_toVector]
  funext j
  have h := LinearMap.pi_apply_eq_sum_univ lin e.toVector
  rw [h, Finset.sum_apply, toMatrix_mulVec_apply]
  apply Finset.sum_congr rfl
  intro i _
  have e1 : (fun j => if i = j then (1 : GF2) else 0) = (eye i.val).toVector := by
    rw [toVector_eye]
    funext k
    rw [Pi.single_apply]
    by_cases hk : i = k
    · rw [if_pos hk, if_pos hk.symm]
    · rw [if_neg hk, if_neg (fun h => hk h.symm)]
  rw [matrix_get, e1, lin_toVector, Pi.smul_apply, smul_eq_mul, mul_comm]

theorem matrix_pow_mulVec (n : Nat) (e : Xoshiro) :
    (toMatrix matrix ^ n).mulVec e.toVector = (step^[n] e).toVector := by
  induction n generalizing e with
  | zero => rw [pow_zero, Matrix.one_mulVec]; rfl
  | succ n ih =>
    rw [pow_succ, ← Matrix.mulVec_mulVec, matrix_mulVec, ih, Function.iterate_succ_apply]

theorem jump_eq (e : Xoshiro) (s : BitVec 64) : e.jump s = step^[s.toNat] e := by
  rw [jump]
  split
  · rw [repeat_eq]
  · rw [toMatrix_mvmul, toMatrix_power, matrix_pow_mulVec, fromVector_toVector]

theorem jump2_eq (e : Xoshiro) (s : BitVec 32) : e.jump2 s = step^[2 ^ s.toNat] e := by
  have h : ∀ n, toMatrix (Nat.repeat (fun M => power M 2) n matrix) = toMatrix matrix ^ 2 ^ n := by
    intro n
    induction n with
    | zero => rw [pow_zero, pow_one]; rfl
    | succ n ih =>
      rw [Nat.repeat, toMatrix_power, ih, ← pow_mul, show (2 : BitVec 64).toNat = 2 from rfl, ← pow_succ]
  rw [jump2]
  rw [toMatrix_mvmul, h, matrix_pow_mulVec, fromVector_toVector]

end Trng.Xoshiro
