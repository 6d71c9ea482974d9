import Verif.Proofs.Minstd
/- C16–C18: minstd. `Minstd.Valid e`: the state is in [1, 2^31-2]. -/
namespace Trng
open Spec Minstd

/-! ### C16 -/

/-- The `k`-th output is `16807^(k+1) r mod (2^31-1)`, for every state below 2^31-1. -/
theorem C16_minstd_recurrence (e : Minstd) (h : e.r.toNat < 2 ^ 31 - 1) (k : Nat) :
    (nth call e k).toNat = 16807 ^ (k + 1) * e.r.toNat % (2 ^ 31 - 1) := by
  have : nth call e k = (step^[k + 1] e).r := by
    rw [nth, afterCalls_call, Function.iterate_succ_apply']; rfl
  rw [this]; exact step_iterate_toNat e h (k + 1)

/-- Every seed value gives a valid state, ... -/
theorem C16_minstd_seed_valid (e : Minstd) (s : BitVec 64) :
    Minstd.default.Valid ∧ (e.seed s).Valid ∧
    (∀ g fuel i e', seedGen g fuel i = some e' → e'.Valid) := by
  have hlt : ∀ x : BitVec 64, ((x % 2147483647#64).setWidth 32).toNat < 2147483647 := fun x => by
    rw [BitVec.toNat_setWidth, BitVec.toNat_umod, show (2147483647#64).toNat = 2147483647 from rfl]
    omega
  have hval : ∀ r : BitVec 32, r ≠ 0 → r.toNat < 2147483647 → Valid ⟨r⟩ := fun r h h' =>
    ⟨Nat.one_le_iff_ne_zero.2 fun h0 => h (BitVec.eq_of_toNat_eq (by simpa using h0)), h'⟩
  refine ⟨by decide, ?_, ?_⟩
  · unfold seed
    simp only
    split
    · decide
    · next h => exact hval _ h (hlt s)
  · intro g fuel i e' h
    induction fuel generalizing i with
    | zero => cases h
    | succ fuel ih =>
      rw [seedGen] at h
      split at h
      · exact ih _ h
      · next hne => cases h; exact hval _ hne (hlt _)

/-- ... the seeding loop ends as soon as a draw is not a multiple of 2^31-1, ... -/
theorem C16_minstd_seedGen_terminates (g : Nat → BitVec 64) (k : Nat)
    (h : (g k).toNat % (2 ^ 31 - 1) ≠ 0) : ∃ e, seedGen g (k + 1) 0 = some e := by
  suffices H : ∀ k i, (g (i + k)).toNat % (2 ^ 31 - 1) ≠ 0 → ∃ e, seedGen g (k + 1) i = some e by
    exact H k 0 (by simpa using h)
  intro k
  induction k with
  | zero =>
    intro i hi
    rw [seedGen]
    rw [if_neg]
    · exact ⟨_, rfl⟩
    · intro h0
      have := congrArg BitVec.toNat h0
      rw [BitVec.toNat_setWidth, BitVec.toNat_umod] at this
      simp at this hi
      omega
  | succ k ih =>
    intro i hi
    rw [seedGen]
    split
    · exact ih (i + 1) (by rw [show i + 1 + k = i + (k + 1) by omega]; exact hi)
    · exact ⟨_, rfl⟩

/-- ... and from a valid state every output, forever, is in [min(), max()]. -/
theorem C16_minstd_range (e : Minstd) (h : e.Valid) (k : Nat) :
    minVal ≤ nth call e k ∧ nth call e k ≤ maxVal := by
  have : nth call e k = (step^[k + 1] e).r := by
    rw [nth, afterCalls_call, Function.iterate_succ_apply']; rfl
  rw [this, BitVec.le_def, BitVec.le_def]
  have := valid_iterate e h (k + 1)
  exact ⟨this.1, Nat.le_of_lt_succ this.2⟩

/-! ### C17 -/

/-- What `discard` does: it performs `n mod (2^31-3)` calls.  The full property (equal to `n`
calls for every n) holds exactly in the case characterised by the next theorem. -/
theorem C17_minstd_discard_partial (e : Minstd) (n : BitVec 64) (hn : n.toNat < 2 ^ 31 - 3) :
    e.discard n = afterCalls call n.toNat e := by
  rw [afterCalls_call, discard_eq, Nat.mod_eq_of_lt (by omega)]

/-- `discard(n)` equals `n` calls iff `⌊n / (2^31-3)⌋` is a multiple of the period. -/
theorem C17_minstd_discard_iff (e : Minstd) (h : e.Valid) (n : BitVec 64) :
    e.discard n = afterCalls call n.toNat e ↔ (2 ^ 31 - 2) ∣ n.toNat / (2 ^ 31 - 3) := by
  rw [afterCalls_call, discard_eq, iterate_eq_iff e h]
  have e1 : p - 1 = 2147483646 := rfl
  rw [e1, Nat.modEq_iff_dvd' (Nat.mod_le _ _)]
  have e2 : n.toNat - n.toNat % 2147483645 = 2147483645 * (n.toNat / 2147483645) := by omega
  rw [e2]
  constructor
  · intro hd
    exact Nat.Coprime.dvd_of_dvd_mul_left (by decide) hd
  · intro hd; exact Dvd.dvd.mul_left hd _

/-- In particular the property is false: `discard(2147483645)` does nothing, whereas the period is
2147483646. -/
theorem C17_minstd_discard_wrong (e : Minstd) (h : e.Valid) :
    e.discard 2147483645#64 = e ∧ afterCalls call 2147483645 e ≠ e := by
  refine ⟨?_, ?_⟩
  · rw [discard_eq]; rfl
  · have := mt (C17_minstd_discard_iff e h 2147483645#64).1 (by decide)
    rw [discard_eq] at this
    exact fun h' => this h'.symm

/-! ### C18 -/

theorem C18_minstd_period (e : Minstd) (h : e.Valid) : ExactPeriod call e (2 ^ 31 - 2) := by
  refine ⟨by norm_num, ?_, fun t h1 h2 h3 => ?_⟩
  · rw [afterCalls_call]
    exact (iterate_eq_iff e h _ 0).2 (by decide)
  · rw [afterCalls_call] at h3
    have := (iterate_eq_iff e h t 0).1 h3
    rw [Nat.modEq_zero_iff_dvd] at this
    exact absurd (Nat.le_of_dvd h1 this) (by simp only [p]; omega)

/-- All admissible values occur: every value in [min(), max()] is an output within one period. -/
theorem C18_minstd_all_values (e : Minstd) (h : e.Valid) (v : BitVec 32) (h1 : minVal ≤ v)
    (h2 : v ≤ maxVal) : ∃ k, k < 2 ^ 31 - 2 ∧ nth call e k = v := by
  -- the map k ↦ k-th output is injective on a set as large as the set of values
  have hout : ∀ k, nth call e k = (step^[k + 1] e).r := fun k => by
    rw [nth, afterCalls_call, Function.iterate_succ_apply']; rfl
  let f : Fin (2 ^ 31 - 2) → Fin (2 ^ 31 - 2) := fun k =>
    ⟨(nth call e k).toNat - 1, by
      have := valid_iterate e h (k + 1)
      rw [hout]
      have h2 := this.2
      simp only [p] at h2
      omega⟩
  have hinj : Function.Injective f := by
    intro a b hab
    have h3 : (nth call e a).toNat - 1 = (nth call e b).toNat - 1 := congrArg Fin.val hab
    have va := valid_iterate e h (a + 1)
    have vb := valid_iterate e h (b + 1)
    rw [hout, hout] at h3
    have h4 : step^[a.val + 1] e = step^[b.val + 1] e := ext_toNat (by
      have := va.1; have := vb.1; omega)
    have h5 := (iterate_eq_iff e h _ _).1 h4
    have h6 := Nat.ModEq.add_right_cancel' 1 h5
    have h7 : p - 1 = 2 ^ 31 - 2 := rfl
    rw [h7] at h6
    rw [Nat.ModEq, Nat.mod_eq_of_lt a.isLt, Nat.mod_eq_of_lt b.isLt] at h6
    exact Fin.ext h6
  have hsurj := Finite.surjective_of_injective hinj
  rw [BitVec.le_def] at h1 h2
  have h1' : 1 ≤ v.toNat := h1
  have h2' : v.toNat ≤ 2147483646 := h2
  obtain ⟨k, hk⟩ := hsurj ⟨v.toNat - 1, by omega⟩
  refine ⟨k, k.isLt, BitVec.eq_of_toNat_eq ?_⟩
  have h3 : (nth call e k).toNat - 1 = v.toNat - 1 := congrArg Fin.val hk
  have := (valid_iterate e h (k + 1)).1
  rw [← hout] at this
  omega

example : (Minstd.seed ⟨1⟩ 123456789#64).Valid := by decide
example : Spec.firstOutputs call 3 ⟨1⟩ = [16807#32, 282475249#32, 1622650073#32] := by decide +kernel

end Trng
