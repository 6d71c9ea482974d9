import Verif.Proofs.LCG64Period
import Verif.Proofs.Schedule
/-
Properties of trng::lcg64 and trng::lcg64_shift (C01–C08 and the lcg64 part of C65).
`LCG64.call` is `lcg64::operator()`, `LCG64.callShift` is `lcg64_shift::operator()`.
-/
namespace Trng
open Spec LCG64

/-! ### C01: `discard(n)` / `jump(n)` is `n` calls -/

theorem C01_lcg64_discard (e : LCG64) (n : BitVec 64) :
    e.discard n = some (afterCalls call n.toNat e) := by
  rw [afterCalls_call]; exact jump_eq e n

theorem C01_lcg64_jump (e : LCG64) (n : BitVec 64) :
    e.jump n = some (afterCalls call n.toNat e) := by
  rw [afterCalls_call]; exact jump_eq e n

theorem C01_lcg64_shift_discard (e : LCG64) (n : BitVec 64) :
    e.discard n = some (afterCalls callShift n.toNat e) := by
  rw [afterCalls_callShift]; exact jump_eq e n

theorem C01_lcg64_shift_jump (e : LCG64) (n : BitVec 64) :
    e.jump n = some (afterCalls callShift n.toNat e) := by
  rw [afterCalls_callShift]; exact jump_eq e n

/-- non-vacuity: a concrete engine, and a concrete (small) discard evaluated by the model -/
example : (ofParam Default).discard 17 = some ⟨Default, 0x72a5151575638331#64⟩ := by
  decide +kernel

/-! ### C02: `jump2(s)` is `2^s` calls, undefined for `s ≥ 64` -/

theorem C02_lcg64_jump2 (e : LCG64) (s : Nat) (hs : s < 64) :
    e.jump2 s = some (afterCalls call (2 ^ s) e) ∧
    e.jump2 s = some (afterCalls callShift (2 ^ s) e) := by
  rw [afterCalls_call, afterCalls_callShift]
  exact ⟨jump2_eq e s hs, jump2_eq e s hs⟩

theorem C02_lcg64_jump2_ub (e : LCG64) (s : Nat) (hs : 64 ≤ s) : e.jump2 s = none := by
  simp [jump2, oneShl, Nat.not_lt.2 hs]

/-! ### C03: `split` is leapfrog for odd multipliers -/

private theorem split_cases (e : LCG64) (ha : e.P.a.toNat % 2 = 1) (s n : BitVec 32)
    (hn : n < s) : ∃ e', e.split s n = .ok e' ∧
      ∀ k, (step^[k + 1] e').r = (step^[k * s.toNat + n.toNat + 1] e).r := by
  rw [BitVec.lt_def] at hn
  by_cases h1 : 1 < s.toNat
  · refine ⟨_, split_eq e s n h1 hn, fun k => ?_⟩
    rw [Function.iterate_succ_apply, step_backward, big_iterate, ← Function.iterate_add_apply]
    · congr 2; ring
    · exact odd_pow _ (by rw [step_iterate]; exact ha) _
  · have hs : s = 1 := BitVec.eq_of_toNat_eq (by simp; omega)
    have hn0 : n = 0 := BitVec.eq_of_toNat_eq (by simp; omega)
    subst hs; subst hn0
    refine ⟨e, ?_, fun k => by simp⟩
    unfold split
    rw [if_neg (by decide), if_neg (by decide)]

theorem C03_lcg64_split_leapfrog (e : LCG64) (ha : e.P.a.toNat % 2 = 1) (s n : BitVec 32)
    (hn : n < s) :
    ∃ e', e.split s n = .ok e' ∧ Leapfrog call e e' s.toNat n.toNat := by
  obtain ⟨e', h, hk⟩ := split_cases e ha s n hn
  exact ⟨e', h, fun k => by rw [nth_call, nth_call, hk]⟩

theorem C03_lcg64_shift_split_leapfrog (e : LCG64) (ha : e.P.a.toNat % 2 = 1) (s n : BitVec 32)
    (hn : n < s) :
    ∃ e', e.split s n = .ok e' ∧ Leapfrog callShift e e' s.toNat n.toNat := by
  obtain ⟨e', h, hk⟩ := split_cases e ha s n hn
  exact ⟨e', h, fun k => by rw [nth_callShift, nth_callShift, hk]⟩

/-- all built-in multipliers are odd -/
example : ∀ P ∈ [Default, LEcuyer1, LEcuyer2, LEcuyer3], P.a.toNat % 2 = 1 := by decide
example : (3 : BitVec 32) < 7 := by decide

/-! ### C04: the multiplier has to be odd -/

/-- For every even non-zero multiplier, every addend and every number of streams `s ≥ 2` there
is a state for which the first value after `split(s, 0)` is not the first value of the unsplit
engine (both engines). -/
theorem C04_even_multiplier_breaks_split (a b : BitVec 64) (ha : a.toNat % 2 = 0) (ha0 : a ≠ 0)
    (s : BitVec 32) (hs : 1 < s) :
    ∃ r e', (⟨⟨a, b⟩, r⟩ : LCG64).split s 0 = .ok e' ∧
      nth call e' 0 ≠ nth call ⟨⟨a, b⟩, r⟩ 0 ∧
      nth callShift e' 0 ≠ nth callShift ⟨⟨a, b⟩, r⟩ 0 := by
  have hs' : 1 < s.toNat := by rw [BitVec.lt_def] at hs; simpa using hs
  have hsp : ∀ r, (⟨⟨a, b⟩, r⟩ : LCG64).split s 0 =
      .ok (step^[backSteps] (big (step^[1] ⟨⟨a, b⟩, r⟩) s.toNat)) := fun r =>
    split_eq _ s 0 hs' (by simp; omega)
  obtain ⟨c, hc⟩ := exists_two_mul_of_even a ha
  have hz : (a ^ s.toNat) ^ (2 ^ 64) = 0 := by
    have h64 : (2 : BitVec 64) ^ (s.toNat * 2 ^ 64) = 0 := by
      have : s.toNat * 2 ^ 64 = 64 + (s.toNat * 2 ^ 64 - 64) := by omega
      rw [this, pow_add, two_pow_64, zero_mul]
    rw [hc, ← pow_mul, mul_pow, h64, zero_mul]
  -- the value after split does not depend on the state
  have hconst : ∀ r, (step^[1] (step^[backSteps] (big (step^[1] ⟨⟨a, b⟩, r⟩) s.toNat))).r =
      geo (a ^ s.toNat) (2 ^ 64) * (b * geo a s.toNat) := by
    intro r
    rw [← Function.iterate_add_apply, Nat.add_comm 1, backSteps_succ,
      step_iterate]
    simp only [big, step_iterate]
    rw [hz]; ring
  by_contra hcon
  have heq : ∀ r, (step^[1] (⟨⟨a, b⟩, r⟩ : LCG64)).r =
      geo (a ^ s.toNat) (2 ^ 64) * (b * geo a s.toNat) := by
    intro r
    by_contra hne
    apply hcon
    refine ⟨r, _, hsp r, ?_, ?_⟩
    · rw [nth_call, nth_call, hconst]; exact fun h => hne h.symm
    · rw [nth_callShift, nth_callShift, hconst]
      exact fun h => hne (shiftOut_injective h).symm
  have h0 := heq 0
  have h1 := heq 1
  rw [← h0] at h1
  simp only [Function.iterate_one, step] at h1
  apply ha0
  linear_combination h1

example : (2#64).toNat % 2 = 0 ∧ (2#64) ≠ 0 ∧ (1 : BitVec 32) < 4 := by decide

/-! ### C05: the leapfrog streams partition the sequence, under every schedule -/

theorem C05_lcg64_partition (e : LCG64) (ha : e.P.a.toNat % 2 = 1) (s : BitVec 32) (hs : 0 < s) :
    ∃ E : Nat → LCG64, (∀ j, j < s.toNat → e.split s (BitVec.ofNat 32 j) = .ok (E j)) ∧
      PartitionedBy call e s.toNat E ∧ PartitionedBy callShift e s.toNat E := by
  have hs' : 0 < s.toNat := by rw [BitVec.lt_def] at hs; simpa using hs
  have hj : ∀ j, j < s.toNat → (BitVec.ofNat 32 j).toNat = j := fun j hj => by
    rw [BitVec.toNat_ofNat]; exact Nat.mod_eq_of_lt (by have := s.isLt; omega)
  have hex : ∀ j, ∃ e', j < s.toNat → e.split s (BitVec.ofNat 32 j) = .ok e' ∧
      Leapfrog call e e' s.toNat j ∧ Leapfrog callShift e e' s.toNat j := by
    intro j
    by_cases h : j < s.toNat
    · have hlt : BitVec.ofNat 32 j < s := by rw [BitVec.lt_def, hj j h]; exact h
      obtain ⟨e1, h1, h1'⟩ := C03_lcg64_split_leapfrog e ha s _ hlt
      obtain ⟨e2, h2, h2'⟩ := C03_lcg64_shift_split_leapfrog e ha s _ hlt
      rw [h1] at h2
      cases h2
      rw [hj j h] at h1' h2'
      exact ⟨e1, fun _ => ⟨h1, h1', h2'⟩⟩
    · exact ⟨e, fun h' => absurd h' h⟩
  choose E hE using hex
  exact ⟨E, fun j h => (hE j h).1,
    partitionedBy_of_leapfrog _ _ _ _ hs' fun j h => (hE j h).2.1,
    partitionedBy_of_leapfrog _ _ _ _ hs' fun j h => (hE j h).2.2⟩

example : (0 : BitVec 32) < 5 ∧ (∀ j ∈ [4, 0, 0, 2, 4, 1], j < (5 : BitVec 32).toNat) := by decide

/-! ### C06: argument validation -/

theorem C06_lcg64_split_throws_iff (e : LCG64) (s n : BitVec 32) :
    (∃ e', e.split s n = .throws e') ↔ (s.toNat < 1 ∨ s.toNat ≤ n.toNat) := by
  constructor
  · rintro ⟨e', h⟩
    unfold split at h
    split at h
    · next hc => rw [BitVec.lt_def, ge_iff_le, BitVec.le_def] at hc; simpa using hc
    · split at h
      · revert h
        generalize (do
          let e ← e.jump (n.setWidth 64 + 1)
          backward { e with P := ⟨pow e.P.a (s.setWidth 64), e.P.b * f (s.setWidth 64) e.P.a⟩ })
            = o
        cases o <;> simp [Outcome.ofOption]
      · cases h
  · intro h
    refine ⟨e, ?_⟩
    unfold split
    rw [if_pos]
    rw [BitVec.lt_def, ge_iff_le, BitVec.le_def]; simpa using h

theorem C06_lcg64_split_throws_unchanged (e e' : LCG64) (s n : BitVec 32)
    (h : e.split s n = .throws e') : e' = e := by
  have hc := (C06_lcg64_split_throws_iff e s n).1 ⟨e', h⟩
  unfold split at h
  rw [if_pos (by rw [BitVec.lt_def, ge_iff_le, BitVec.le_def]; simpa using hc)] at h
  cases h; rfl

theorem C06_lcg64_split_one (e : LCG64) : e.split 1 0 = .ok e := by
  unfold split
  rw [if_neg (by decide), if_neg (by decide)]

/-- `split` never runs into undefined behaviour, for any multiplier. -/
theorem C06_lcg64_split_no_ub (e : LCG64) (s n : BitVec 32) : e.split s n ≠ .ub := by
  by_cases hn : n.toNat < s.toNat
  · by_cases h1 : 1 < s.toNat
    · rw [split_eq e s n h1 hn]; exact nofun
    · have hs : s = 1 := BitVec.eq_of_toNat_eq (by simp; omega)
      have hn0 : n = 0 := BitVec.eq_of_toNat_eq (by simp; omega)
      rw [hs, hn0, C06_lcg64_split_one]; simp
  · obtain ⟨e', h⟩ := (C06_lcg64_split_throws_iff e s n).2 (Or.inr (by omega))
    rw [h]; simp

example : (ofParam Default).split 0 0 = .throws (ofParam Default) ∧
    (ofParam Default).split 4 4 = .throws (ofParam Default) := by decide

/-! ### C07: nested splits compose -/

theorem C07_lcg64_split_split (e e1 e2 e3 : LCG64) (ha : e.P.a.toNat % 2 = 1)
    (s1 n1 s2 n2 : BitVec 32) (hfit : s1.toNat * s2.toNat < 2 ^ 32)
    (h1 : e.split s1 n1 = .ok e1) (h2 : e1.split s2 n2 = .ok e2)
    (h3 : e.split (s1 * s2) (n1 + n2 * s1) = .ok e3) :
    SameFuture call e2 e3 ∧ SameFuture callShift e2 e3 := by
  have lt_of_ok : ∀ (e e' : LCG64) (s n : BitVec 32), e.split s n = .ok e' →
      n < s := by
    intro e e' s n h
    rw [BitVec.lt_def]
    by_contra hc
    obtain ⟨e'', h'⟩ := (C06_lcg64_split_throws_iff e s n).2 (Or.inr (by omega))
    rw [h'] at h; cases h
  have hlt1 := lt_of_ok _ _ _ _ h1
  have hlt2 := lt_of_ok _ _ _ _ h2
  have hlt3 := lt_of_ok _ _ _ _ h3
  have ha1 : e1.P.a.toNat % 2 = 1 := by
    by_cases hs : 1 < s1.toNat
    · rw [split_eq e s1 n1 hs (by rw [BitVec.lt_def] at hlt1; exact hlt1)] at h1
      cases h1
      rw [step_iterate_P]
      exact odd_pow _ (by rw [step_iterate_P]; exact ha) _
    · rw [BitVec.lt_def] at hlt1
      have hs : s1 = 1 := BitVec.eq_of_toNat_eq (by simp; omega)
      have hn0 : n1 = 0 := BitVec.eq_of_toNat_eq (by simp; omega)
      rw [hs, hn0, C06_lcg64_split_one] at h1
      cases h1; exact ha
  have hS : (s1 * s2).toNat = s1.toNat * s2.toNat := by
    rw [BitVec.toNat_mul]; exact Nat.mod_eq_of_lt hfit
  have hN : (n1 + n2 * s1).toNat = n2.toNat * s1.toNat + n1.toNat := by
    rw [BitVec.lt_def] at hlt1 hlt2
    have : n2.toNat * s1.toNat + n1.toNat < s1.toNat * s2.toNat := by nlinarith
    rw [BitVec.toNat_add, BitVec.toNat_mul, Nat.add_mod_mod, Nat.add_comm]
    exact Nat.mod_eq_of_lt (by omega)
  constructor
  · obtain ⟨_, g1, l1⟩ := C03_lcg64_split_leapfrog e ha s1 n1 hlt1
    obtain ⟨_, g2, l2⟩ := C03_lcg64_split_leapfrog e1 ha1 s2 n2 hlt2
    obtain ⟨_, g3, l3⟩ := C03_lcg64_split_leapfrog e ha _ _ hlt3
    rw [h1] at g1; rw [h2] at g2; rw [h3] at g3
    cases g1; cases g2; cases g3
    have := l1.comp l2
    intro k
    rw [this k, l3 k, hS, hN]
  · obtain ⟨_, g1, l1⟩ := C03_lcg64_shift_split_leapfrog e ha s1 n1 hlt1
    obtain ⟨_, g2, l2⟩ := C03_lcg64_shift_split_leapfrog e1 ha1 s2 n2 hlt2
    obtain ⟨_, g3, l3⟩ := C03_lcg64_shift_split_leapfrog e ha _ _ hlt3
    rw [h1] at g1; rw [h2] at g2; rw [h3] at g3
    cases g1; cases g2; cases g3
    have := l1.comp l2
    intro k
    rw [this k, l3 k, hS, hN]

/-- non-vacuity: the three splits all succeed for `s1=3, n1=1, s2=2, n2=1`. -/
example : (∃ e1, (ofParam Default).split 3 1 = .ok e1) ∧
    (∃ e3, (ofParam Default).split (3 * 2) (1 + 1 * 3) = .ok e3) ∧
    (3#32).toNat * (2#32).toNat < 2 ^ 32 :=
  ⟨⟨_, (C03_lcg64_split_leapfrog (ofParam Default) (by decide) 3 1 (by decide)).choose_spec.1⟩,
   ⟨_, (C03_lcg64_split_leapfrog (ofParam Default) (by decide) (3 * 2) (1 + 1 * 3)
      (by decide)).choose_spec.1⟩, by decide⟩

/-! ### C08: full period -/

theorem C08_lcg64_period (e : LCG64) (ha : e.P.a.toNat % 4 = 1) (hb : e.P.b.toNat % 2 = 1) :
    ExactPeriod call e (2 ^ 64) ∧ ExactPeriod callShift e (2 ^ 64) := by
  have main : step^[2 ^ 64] e = e ∧ ∀ t, 0 < t → t < 2 ^ 64 → step^[t] e ≠ e := by
    refine ⟨(step_iterate_eq_self_iff e ha hb _).2 dvd_rfl, fun t ht hlt h => ?_⟩
    have := (step_iterate_eq_self_iff e ha hb _).1 h
    exact absurd (Nat.le_of_dvd ht this) (by omega)
  refine ⟨⟨by norm_num, ?_, fun t ht hlt => ?_⟩, ⟨by norm_num, ?_, fun t ht hlt => ?_⟩⟩
  · rw [afterCalls_call]; exact main.1
  · rw [afterCalls_call]; exact main.2 t ht hlt
  · rw [afterCalls_callShift]; exact main.1
  · rw [afterCalls_callShift]; exact main.2 t ht hlt

theorem C08_lcg64_each_value_once (e : LCG64) (ha : e.P.a.toNat % 4 = 1)
    (hb : e.P.b.toNat % 2 = 1) (v : BitVec 64) :
    ∃! k, k < 2 ^ 64 ∧ nth call e k = v := by
  have hinj : ∀ i j, i < 2 ^ 64 → j < 2 ^ 64 → nth call e i = nth call e j → i = j := by
    intro i j hi hj h
    rw [nth_call, nth_call] at h
    apply iterate_injective e ha hb i j hi hj
    apply step_injective _ _ (by rw [step_iterate_P, step_iterate_P])
      (by rw [step_iterate_P]; omega)
    rw [← Function.iterate_succ_apply' step, ← Function.iterate_succ_apply' step]
    have hP : (step^[i + 1] e).P = (step^[j + 1] e).P := by
      rw [step_iterate_P, step_iterate_P]
    calc step^[i + 1] e = ⟨(step^[i + 1] e).P, (step^[i + 1] e).r⟩ := rfl
      _ = step^[j + 1] e := by rw [hP, h]
  obtain ⟨k, hk, hv⟩ := bijective_of_injOn _ hinj v
  exact ⟨k, ⟨hk, hv⟩, fun j hj => hinj j k hj.1 hk (hj.2.trans hv.symm)⟩

theorem C08_lcg64_shift_each_value_once (e : LCG64) (ha : e.P.a.toNat % 4 = 1)
    (hb : e.P.b.toNat % 2 = 1) (v : BitVec 64) :
    ∃! k, k < 2 ^ 64 ∧ nth callShift e k = v := by
  have hinj : ∀ i j, i < 2 ^ 64 → j < 2 ^ 64 → nth callShift e i = nth callShift e j →
      i = j := by
    intro i j hi hj h
    rw [nth_callShift, nth_callShift] at h
    have h' : nth call e i = nth call e j := by
      rw [nth_call, nth_call]; exact shiftOut_injective h
    obtain ⟨k, -, hu⟩ := C08_lcg64_each_value_once e ha hb (nth call e i)
    rw [hu i ⟨hi, rfl⟩, hu j ⟨hj, h'.symm⟩]
  obtain ⟨k, hk, hv⟩ := bijective_of_injOn _ hinj v
  exact ⟨k, ⟨hk, hv⟩, fun j hj => hinj j k hj.1 hk (hj.2.trans hv.symm)⟩

/-- All four built-in parameter sets satisfy the hypotheses: from every state, the engines have
period `2^64` and deliver every value once per period. -/
theorem C08_lcg64_builtin_period : ∀ P ∈ [Default, LEcuyer1, LEcuyer2, LEcuyer3], ∀ r,
    ExactPeriod call ⟨P, r⟩ (2 ^ 64) ∧ ExactPeriod callShift ⟨P, r⟩ (2 ^ 64) ∧
    (∀ v, ∃! k, k < 2 ^ 64 ∧ nth call ⟨P, r⟩ k = v) ∧
    (∀ v, ∃! k, k < 2 ^ 64 ∧ nth callShift ⟨P, r⟩ k = v) := by
  intro P hP r
  have h : P.a.toNat % 4 = 1 ∧ P.b.toNat % 2 = 1 := by revert P; decide
  exact ⟨(C08_lcg64_period ⟨P, r⟩ h.1 h.2).1, (C08_lcg64_period ⟨P, r⟩ h.1 h.2).2,
    C08_lcg64_each_value_once ⟨P, r⟩ h.1 h.2, C08_lcg64_shift_each_value_once ⟨P, r⟩ h.1 h.2⟩

/-! ### C65 (lcg64 part): block splitting -/

/-- Cutting the first `p*b` values into `p` blocks, block number `rank` computed by a copy of the
engine after `jump(rank*b)`, gives back the sequential output. -/
theorem C65_lcg64_block_splitting (e : LCG64) (p b : Nat) (h : p * b < 2 ^ 64) :
    ∃ blocks, (List.range p).mapM (fun rank =>
        (e.jump (BitVec.ofNat 64 (rank * b))).map (firstOutputs call b)) = some blocks ∧
      blocks.flatten = firstOutputs call (p * b) e := by
  refine ⟨(List.range p).map fun rank => firstOutputs call b (afterCalls call (rank * b) e),
    ?_, ?_⟩
  · apply List.mapM_option_eq_some_map
    intro rank hr
    have : rank * b < 2 ^ 64 :=
      lt_of_le_of_lt (Nat.mul_le_mul_right b (List.mem_range.1 hr).le) h
    rw [C01_lcg64_jump, BitVec.toNat_ofNat, Nat.mod_eq_of_lt this]
    rfl
  · clear h
    induction p with
    | zero => simp [firstOutputs]
    | succ p ih => rw [List.range_succ, List.map_append, List.flatten_append, ih, Nat.succ_mul,
        firstOutputs_add]; simp

end Trng
