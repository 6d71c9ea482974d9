import Verif.Proofs.Count128
import Verif.Proofs.Schedule
import Verif.Props.UInt128
/- C13–C15, and the count128_lcg_shift parts of C05, C06, C07, C38. -/
namespace Trng
open Spec Count128

/-! ### C13: discard, jump2, split -/

theorem C13_count128_discard (e : Count128) (n : BitVec 64) :
    e.discard n = afterCalls call n.toNat e ∧ e.jump n = afterCalls call n.toNat e := by
  rw [afterCalls_call]; exact ⟨jump_eq e n, jump_eq e n⟩

theorem C13_count128_jump2 (e : Count128) (s : BitVec 32) (hs : s.toNat < 128) :
    e.jump2 s = afterCalls call (2 ^ s.toNat) e := by
  rw [afterCalls_call, jump2_eq, Nat.mod_eq_of_lt hs]

theorem C13_count128_split_leapfrog (e : Count128) (s n : BitVec 32) (hn : n < s) :
    ∃ e', e.split s n = .ok e' ∧ Leapfrog call e e' s.toNat n.toNat := by
  rw [BitVec.lt_def] at hn
  have h1 : ¬ (s < 1 ∨ n ≥ s) := by
    rw [BitVec.lt_def, ge_iff_le, BitVec.le_def]; simp; omega
  by_cases hs : s > 1
  · refine ⟨_, by unfold split; rw [if_neg h1, if_pos hs], fun k => ?_⟩
    rw [nth_call, nth_call]
    simp only
    congr 1
    have e1 : ∀ x : BitVec 32, (x.setWidth 64).toNat = x.toNat := fun x => by
      rw [BitVec.toNat_setWidth]; have := x.isLt; omega
    rw [words_zero, words_zero, e1, e1, BitVec.ofNat_add, BitVec.ofNat_add, BitVec.ofNat_add,
      BitVec.ofNat_mul]
    generalize BitVec.ofNat 128 n.toNat = N
    generalize BitVec.ofNat 128 s.toNat = S
    generalize BitVec.ofNat 128 k = K
    have : BitVec.ofNat 128 1 = 1 := rfl
    rw [this]
    ring
  · rw [gt_iff_lt, BitVec.lt_def] at hs
    have hs1 : s = 1 := BitVec.eq_of_toNat_eq (by simp at hs ⊢; omega)
    have hn0 : n = 0 := BitVec.eq_of_toNat_eq (by subst hs1; simp at hn ⊢; omega)
    subst hs1; subst hn0
    refine ⟨e, ?_, fun k => by simp⟩
    unfold split
    rw [if_neg (by decide), if_neg (by decide)]

example : ((ofParam Default).split 7 3) = .ok ⟨⟨7 * Default.increment,
    18145460002477866997#64, 1⟩, 4 * Default.increment - 7 * Default.increment⟩ := by
  decide +kernel

/-! ### C05, C06, C07 (count128_lcg_shift part) -/

theorem C05_count128_partition (e : Count128) (s : BitVec 32) (hs : 0 < s) :
    ∃ E : Nat → Count128, (∀ j, j < s.toNat → e.split s (BitVec.ofNat 32 j) = .ok (E j)) ∧
      PartitionedBy call e s.toNat E := by
  have hs' : 0 < s.toNat := by rw [BitVec.lt_def] at hs; simpa using hs
  have hj : ∀ j, j < s.toNat → (BitVec.ofNat 32 j).toNat = j := fun j hj => by
    rw [BitVec.toNat_ofNat]; exact Nat.mod_eq_of_lt (by have := s.isLt; omega)
  have hex : ∀ j, ∃ e', j < s.toNat → e.split s (BitVec.ofNat 32 j) = .ok e' ∧
      Leapfrog call e e' s.toNat j := by
    intro j
    by_cases h : j < s.toNat
    · obtain ⟨e1, h1, h1'⟩ := C13_count128_split_leapfrog e s (BitVec.ofNat 32 j)
        (by rw [BitVec.lt_def, hj j h]; exact h)
      rw [hj j h] at h1'
      exact ⟨e1, fun _ => ⟨h1, h1'⟩⟩
    · exact ⟨e, fun h' => absurd h' h⟩
  choose E hE using hex
  exact ⟨E, fun j h => (hE j h).1,
    partitionedBy_of_leapfrog _ _ _ _ hs' fun j h => (hE j h).2⟩

theorem C06_count128_split_throws_iff (e : Count128) (s n : BitVec 32) :
    (∃ e', e.split s n = .throws e') ↔ (s.toNat < 1 ∨ s.toNat ≤ n.toNat) := by
  constructor
  · rintro ⟨e', h⟩
    unfold split at h
    split at h
    · next hc => rw [BitVec.lt_def, ge_iff_le, BitVec.le_def] at hc; simpa using hc
    · split at h <;> cases h
  · intro h
    refine ⟨e, ?_⟩
    unfold split
    rw [if_pos]
    rw [BitVec.lt_def, ge_iff_le, BitVec.le_def]; simpa using h

theorem C06_count128_split_throws_unchanged (e e' : Count128) (s n : BitVec 32)
    (h : e.split s n = .throws e') : e' = e := by
  have hc := (C06_count128_split_throws_iff e s n).1 ⟨e', h⟩
  unfold split at h
  rw [if_pos (by rw [BitVec.lt_def, ge_iff_le, BitVec.le_def]; simpa using hc)] at h
  cases h; rfl

theorem C06_count128_split_one (e : Count128) : e.split 1 0 = .ok e := by
  unfold split
  rw [if_neg (by decide), if_neg (by decide)]

/-- Nested splits compose: splitting by `(s,n)` and then by `(t,m)` is leapfrog with stride `s*t`
and offset `m*s+n`. -/
theorem C07_count128_split_split (e : Count128) (s n t m : BitVec 32) (hn : n < s) (hm : m < t) :
    ∃ e1 e2, e.split s n = .ok e1 ∧ e1.split t m = .ok e2 ∧
      Leapfrog call e e2 (s.toNat * t.toNat) (m.toNat * s.toNat + n.toNat) := by
  obtain ⟨e1, h1, g1⟩ := C13_count128_split_leapfrog e s n hn
  obtain ⟨e2, h2, g2⟩ := C13_count128_split_leapfrog e1 t m hm
  refine ⟨e1, e2, h1, h2, fun k => ?_⟩
  rw [g2, g1]
  congr 1; ring

/-! ### C14: full period -/

theorem C14_count128_period (e : Count128) (h : e.P.increment.toNat % 2 = 1) :
    ExactPeriod call e (2 ^ 128) := by
  have key : ∀ t : Nat, step^[t] e = e ↔ 2 ^ 128 ∣ t := by
    intro t
    rw [step_iterate]
    have : ({ e with r := e.r + BitVec.ofNat 128 t * e.P.increment } = e) ↔
        e.r + BitVec.ofNat 128 t * e.P.increment = e.r := by
      cases e; simp
    rw [this, add_eq_left, BitVec.toNat_eq, BitVec.toNat_mul, BitVec.toNat_ofNat]
    simp only [BitVec.toNat_ofNat, BitVec.ofNat_eq_ofNat, Nat.zero_mod, Nat.mod_mul_mod]
    rw [← Nat.dvd_iff_mod_eq_zero]
    constructor
    · intro hd
      refine Nat.Coprime.dvd_of_dvd_mul_right ?_ hd
      refine Nat.Coprime.pow_left _ ?_
      rw [Nat.coprime_comm, Nat.coprime_iff_gcd_eq_one, Nat.gcd_comm, Nat.gcd_rec, h]; rfl
    · intro hd; exact Dvd.dvd.mul_right hd _
  refine ⟨by norm_num, ?_, fun t h1 h2 => ?_⟩
  · rw [afterCalls_call]; exact (key _).2 (dvd_refl _)
  · rw [afterCalls_call, Ne, key]
    exact fun hd => absurd (Nat.le_of_dvd h1 hd) (by omega)

/-- Not only the state: the sequence of returned numbers has period exactly `2^128`. -/
theorem C14_count128_output_period (e : Count128) (h : e.P.increment.toNat % 2 = 1)
    (ha : e.P.a.toNat % 2 = 1) : ExactOutputPeriod call e (2 ^ 128) := by
  refine exactOutputPeriod_two_pow (w := 127) (fun k => ?_) ⟨0, ?_⟩
  · have h1 := nth_afterCalls call (2 ^ 128) k e
    rw [(C14_count128_period e h).2.1] at h1
    rw [h1, Nat.add_comm]
  · rw [nth_call, nth_call]
    have h1 : BitVec.ofNat 128 (0 + 2 ^ 127 + 1) * e.P.increment =
        BitVec.ofNat 128 (0 + 1) * e.P.increment + BitVec.ofNat 128 (2 ^ 127) := by
      have h2 : BitVec.ofNat 128 (2 ^ 127) * e.P.increment = BitVec.ofNat 128 (2 ^ 127) := by
        apply BitVec.eq_of_toNat_eq
        rw [BitVec.toNat_mul, BitVec.toNat_ofNat]
        obtain ⟨q, hq⟩ : ∃ q, e.P.increment.toNat = 2 * q + 1 := ⟨e.P.increment.toNat / 2, by omega⟩
        rw [hq]
        omega
      rw [show 0 + 2 ^ 127 + 1 = (0 + 1) + 2 ^ 127 from rfl, BitVec.ofNat_add, BitVec.add_mul, h2]
    rw [h1, ← BitVec.add_assoc]
    exact out_add_half ha _

/-- All four built-in parameter sets satisfy the hypotheses: both periods are `2^128`, from every
state. -/
theorem C14_count128_builtin_period : ∀ P ∈ [Default, LEcuyer1, LEcuyer2, LEcuyer3], ∀ r,
    ExactPeriod call ⟨P, r⟩ (2 ^ 128) ∧ ExactOutputPeriod call ⟨P, r⟩ (2 ^ 128) := by
  intro P hP r
  have h : P.increment.toNat % 2 = 1 ∧ P.a.toNat % 2 = 1 := by revert P; decide +kernel
  exact ⟨C14_count128_period ⟨P, r⟩ h.1, C14_count128_output_period ⟨P, r⟩ h.1 h.2⟩

/-! ### C15: independence of the 128-bit integer implementation -/

/-- Corresponding native and portable engines. -/
def Count128P.Same (p : Count128P) (e : Count128) : Prop :=
  p.a = e.P.a ∧ p.b = e.P.b ∧ PU128.bv p.increment = e.P.increment ∧ PU128.bv p.r = e.r

/-- The property fails: the portable engine returns the same number forever, whatever its state
and increment. -/
theorem C15_portable_constant (p : Count128P) (k : Nat) :
    nth Count128P.call p k = output ⟨0, p.a, p.b⟩ 0 0 := by
  have hab : ∀ n, (afterCalls Count128P.call n p).a = p.a ∧
      (afterCalls Count128P.call n p).b = p.b := by
    intro n
    induction n generalizing p with
    | zero => exact ⟨rfl, rfl⟩
    | succ n ih => exact ih (Count128P.call p).2
  rw [nth]
  simp only [Count128P.call, Count128P.step, PU128.getHi, PU128.getLo, output, BitVec.xor_self,
    hab k]

/-- Concretely: default-constructed engines of the two builds differ in their first output. -/
theorem C15_implementations_differ :
    Count128P.Same Count128P.Default (ofParam Default) ∧
    nth Count128P.call Count128P.Default 0 ≠ nth call (ofParam Default) 0 := by
  constructor
  · refine ⟨rfl, rfl, ?_, ?_⟩ <;> decide +kernel
  · decide +kernel

private theorem bv_create0 (x : BitVec 64) : PU128.bv (PU128.create 0 x) = words 0 x :=
  (words_eq 0 x).symm

private theorem same_jump (p : Count128P) (e : Count128) (h : p.Same e) (n : BitVec 64) :
    (p.jump n).Same (e.jump n) := by
  obtain ⟨h1, h2, h3, h4⟩ := h
  unfold Count128P.jump Count128.jump Count128P.Same
  dsimp only
  rw [C43_add, C43_mul, h1, h2, h3, h4, bv_create0]
  exact ⟨rfl, rfl, rfl, rfl⟩

private theorem same_jump2 (p : Count128P) (e : Count128) (h : p.Same e) (s : BitVec 32) :
    ∃ p', p.jump2 s = some p' ∧ p'.Same (e.jump2 s) := by
  obtain ⟨h1, h2, h3, h4⟩ := h
  obtain ⟨t, ht, ht'⟩ := PU128.shlNat_eq (PU128.create 0 1) (s.toNat % 128)
    (Nat.mod_lt _ (by decide))
  have ht2 : PU128.shl (PU128.create 0 1) (s.toNat % 128 : Nat) = some t := by
    unfold PU128.shl
    rw [if_neg (by omega), Int.toNat_natCast]; exact ht
  refine ⟨⟨p.increment, p.a, p.b, PU128.add p.r (PU128.mul t p.increment)⟩, ?_, ?_⟩
  · simp only [Count128P.jump2, ht2, Option.bind_eq_bind, Option.bind_some, Option.pure_def]
  · unfold Count128.jump2 Count128P.Same
    dsimp only
    rw [C43_add, C43_mul, h1, h2, h3, h4, ht', bv_create0]
    exact ⟨rfl, rfl, rfl, rfl⟩

private theorem same_split (p : Count128P) (e : Count128) (h : p.Same e) (s n : BitVec 32)
    (hn : n < s) : ∃ p' e', p.split s n = .ok p' ∧ e.split s n = .ok e' ∧ p'.Same e' := by
  obtain ⟨h1, h2, h3, h4⟩ := h
  have h0 : ¬ (s < 1 ∨ n ≥ s) := by
    rw [BitVec.lt_def] at hn
    rw [BitVec.lt_def, ge_iff_le, BitVec.le_def]; simp; omega
  unfold Count128P.split split
  rw [if_neg h0, if_neg h0]
  by_cases hs : s > 1
  · rw [if_pos hs, if_pos hs]
    refine ⟨_, _, rfl, rfl, ?_⟩
    unfold Count128P.Same
    dsimp only
    rw [C43_sub, C43_add, C43_add, C43_mul, C43_mul, h1, h2, h3, h4, bv_create0, bv_create0]
    exact ⟨rfl, rfl, rfl, rfl⟩
  · rw [if_neg hs, if_neg hs]
    exact ⟨_, _, rfl, rfl, h1, h2, h3, h4⟩

/-- What does agree (the part of the property that holds): the states and parameters of
corresponding engines stay in correspondence under calls, `jump`/`discard`, `jump2` and `split`;
only the word `hi()` handed to the output function differs. Missing: equality of the outputs,
which is false. -/
theorem C15_portable_state_partial (p : Count128P) (e : Count128) (h : p.Same e) :
    (Count128P.call p).2.Same (call e).2 ∧
    (∀ n, (p.jump n).Same (e.jump n)) ∧
    (∀ s, ∃ p', p.jump2 s = some p' ∧ p'.Same (e.jump2 s)) ∧
    (∀ s n, n < s → ∃ p' e', p.split s n = .ok p' ∧ e.split s n = .ok e' ∧ p'.Same e') := by
  refine ⟨?_, same_jump p e h, same_jump2 p e h, same_split p e h⟩
  obtain ⟨h1, h2, h3, h4⟩ := h
  unfold Count128P.call Count128.call Count128P.step Count128.step Count128P.Same
  dsimp only
  rw [C43_add, h1, h2, h3, h4]
  exact ⟨rfl, rfl, rfl, rfl⟩

/-! ### C38 (count128_lcg_shift part): equality does not imply equal futures -/

theorem C38_count128_eq_wrong : ∃ e e' : Count128, Count128.eq e e' = true ∧
    nth call e 0 ≠ nth call e' 0 :=
  ⟨ofParam Default, ⟨⟨1, Default.a, Default.b⟩, 0⟩, by decide +kernel, by decide +kernel⟩

end Trng
