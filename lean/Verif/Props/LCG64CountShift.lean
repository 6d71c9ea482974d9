import Verif.Proofs.LCG64CountShift
import Verif.Proofs.Schedule
/-
Properties of trng::lcg64_count_shift (C05, C06, C09–C12).

`LCG64Count.Valid e` says: counter and increment are below 2^61-1.  Every constructor and seed
with a built-in parameter set establishes it (C12).
-/
namespace Trng
open Spec LCG64Count

/-! ### C09: `discard(n)` is `n` calls -/

/-- Full statement wanted: for every `n < 2^64`.  It is false above `2^61` (see
`C09_count_shift_discard_wrong`); proved here for every `n < 2^61`. -/
theorem C09_count_shift_discard_partial (e : LCG64Count) (he : Valid e) (n : BitVec 64)
    (hn : n.toNat < 2 ^ 61) :
    e.discard n = some (afterCalls call n.toNat e) := by
  rw [afterCalls_call]
  exact jump_eq e he n (by simp only [M]; omega)

theorem C09_count_shift_jump_partial (e : LCG64Count) (he : Valid e) (n : BitVec 64)
    (hn : n.toNat < 2 ^ 61) :
    e.jump n = some (afterCalls call n.toNat e) :=
  C09_count_shift_discard_partial e he n hn

example : Valid (ofParam Default) ∧ (12345678901234567#64).toNat < 2 ^ 61 := by decide

/-- Negation of the full statement: on a default-constructed engine `discard(2^62)` leads to a
different output at every later position than `2^62` calls. -/
theorem C09_count_shift_discard_wrong :
    ∃ e', (ofParam Default).discard (4611686018427387904#64) = some e' ∧
      ∀ k, nth call e' k ≠ nth call (ofParam Default) (k + 2 ^ 62) := by
  have hcount : addCount 0 (multModulo Default.inc 4611686018427387904#64) =
      0x33c6ef372fe94f83#64 := by decide +kernel
  have hN : (4611686018427387904#64).toNat = 2 ^ 62 := by decide
  generalize hn : (4611686018427387904#64) = n at *
  refine ⟨⟨Default, (LCG64.step^[n.toNat] (ofParam Default).lcg).r, 0x33c6ef372fe94f83#64⟩,
    ?_, fun k => ?_⟩
  · unfold LCG64Count.discard LCG64Count.jump
    rw [if_neg (by rw [← hn]; decide), rJumpLoop_eq _ _ _ _ _ n.isLt (by omega)]
    simp only [pow_zero, mul_one, Option.bind_eq_bind, Option.bind_some, Option.pure_def]
    rw [← hcount]; rfl
  · have hl : ∀ (c : BitVec 64) (m : Nat),
        (⟨Default, (LCG64.step^[m] (ofParam Default).lcg).r, c⟩ : LCG64Count).lcg =
        (step^[m] (ofParam Default)).lcg := fun c m => by
      rw [lcg_iterate, LCG64.step_iterate]; rfl
    have hne : ¬ (0x33c6ef372fe94f83#64).toNat ≡
        (ofParam Default).count.toNat + n.toNat * (ofParam Default).P.inc.toNat [MOD M] := by
      rw [hN]; decide
    have hlt : (0x33c6ef372fe94f83#64).toNat < 2 * M := by decide
    rw [← hN]
    exact nth_ne_of_count_ne (ofParam Default) ⟨Default, _, _⟩ (by decide) hlt n.toNat (hl _ _)
      rfl hne k

/-! ### C10: `jump2(s)` is `2^s` calls -/

theorem C10_count_shift_jump2 (e : LCG64Count) (he : Valid e) (s : Nat) (hs : s < 64) :
    e.jump2 s = some (afterCalls call (2 ^ s) e) := by
  rw [afterCalls_call]; exact jump2_eq e he s hs

theorem C10_count_shift_jump2_ub (e : LCG64Count) (s : Nat) (hs : 64 ≤ s) :
    e.jump2 s = none := by
  simp [jump2, rJump2, LCG64.oneShl, Nat.not_lt.2 hs]

/-! ### C11: `split` is leapfrog -/

theorem C11_count_shift_split_leapfrog (e : LCG64Count) (he : Valid e)
    (ha : e.P.a.toNat % 2 = 1) (s n : BitVec 32) (hn : n < s) :
    ∃ e', e.split s n = .ok e' ∧ Leapfrog call e e' s.toNat n.toNat ∧ Valid e' := by
  rw [BitVec.lt_def] at hn
  by_cases h1 : 1 < s.toNat
  · obtain ⟨e', h, hstep, hv⟩ := split_eq e he ha s n h1 hn
    refine ⟨e', h, fun k => ?_, hv⟩
    rw [nth_call, nth_call, Function.iterate_succ_apply, hstep]
    obtain ⟨g1, g2⟩ := big_iterate _ (valid_iterate e he (n.toNat + 1)) s k
    rw [g1, g2, ← Function.iterate_add_apply,
      show s.toNat * k + (n.toNat + 1) = k * s.toNat + n.toNat + 1 by ring]
  · have hs : s = 1 := BitVec.eq_of_toNat_eq (by simp; omega)
    have hn0 : n = 0 := BitVec.eq_of_toNat_eq (by simp; omega)
    subst hs; subst hn0
    refine ⟨e, ?_, fun k => by simp, he⟩
    unfold split
    rw [if_neg (by decide), if_neg (by decide)]

example : Valid (ofParam LEcuyer2) ∧ (ofParam LEcuyer2).P.a.toNat % 2 = 1 ∧
    (5 : BitVec 32) < 8 := by decide

/-! ### C05 (lcg64_count_shift part) -/

theorem C05_count_shift_partition (e : LCG64Count) (he : Valid e) (ha : e.P.a.toNat % 2 = 1)
    (s : BitVec 32) (hs : 0 < s) :
    ∃ E : Nat → LCG64Count, (∀ j, j < s.toNat → e.split s (BitVec.ofNat 32 j) = .ok (E j)) ∧
      PartitionedBy call e s.toNat E := by
  have hs' : 0 < s.toNat := by rw [BitVec.lt_def] at hs; simpa using hs
  have hj : ∀ j, j < s.toNat → (BitVec.ofNat 32 j).toNat = j := fun j hj => by
    rw [BitVec.toNat_ofNat]; exact Nat.mod_eq_of_lt (by have := s.isLt; omega)
  have hex : ∀ j, ∃ e', j < s.toNat → e.split s (BitVec.ofNat 32 j) = .ok e' ∧
      Leapfrog call e e' s.toNat j := by
    intro j
    by_cases h : j < s.toNat
    · obtain ⟨e1, h1, h1', -⟩ := C11_count_shift_split_leapfrog e he ha s (BitVec.ofNat 32 j)
        (by rw [BitVec.lt_def, hj j h]; exact h)
      rw [hj j h] at h1'
      exact ⟨e1, fun _ => ⟨h1, h1'⟩⟩
    · exact ⟨e, fun h' => absurd h' h⟩
  choose E hE using hex
  exact ⟨E, fun j h => (hE j h).1,
    partitionedBy_of_leapfrog _ _ _ _ hs' fun j h => (hE j h).2⟩

/-! ### C06 (lcg64_count_shift part): argument validation -/

theorem C06_count_shift_split_throws_iff (e : LCG64Count) (s n : BitVec 32) :
    (∃ e', e.split s n = .throws e') ↔ (s.toNat < 1 ∨ s.toNat ≤ n.toNat) := by
  constructor
  · rintro ⟨e', h⟩
    unfold split at h
    split at h
    · next hc => rw [BitVec.lt_def, ge_iff_le, BitVec.le_def] at hc; simpa using hc
    · split at h
      · revert h
        generalize (do
          let e ← e.jump (n.setWidth 64 + 1)
          backward { e with P := ⟨LCG64.pow e.P.a (s.setWidth 64),
            e.P.b * LCG64.f (s.setWidth 64) e.P.a, multModulo (s.setWidth 64) e.P.inc⟩ }) = o
        cases o <;> simp [Outcome.ofOption]
      · cases h
  · intro h
    refine ⟨e, ?_⟩
    unfold split
    rw [if_pos]
    rw [BitVec.lt_def, ge_iff_le, BitVec.le_def]; simpa using h

theorem C06_count_shift_split_throws_unchanged (e e' : LCG64Count) (s n : BitVec 32)
    (h : e.split s n = .throws e') : e' = e := by
  have hc := (C06_count_shift_split_throws_iff e s n).1 ⟨e', h⟩
  unfold split at h
  rw [if_pos (by rw [BitVec.lt_def, ge_iff_le, BitVec.le_def]; simpa using hc)] at h
  cases h; rfl

theorem C06_count_shift_split_one (e : LCG64Count) : e.split 1 0 = .ok e := by
  unfold split
  rw [if_neg (by decide), if_neg (by decide)]

/-! ### C12: the counter invariant along every history -/

/-- The public operations on an lcg64_count_shift object. -/
inductive CountShiftOp where
  | call
  | discard (n : BitVec 64)
  | jump2 (s : Nat)
  | split (s n : BitVec 32)
  | seed0
  | seed (s : BitVec 64)
  | seedGen (g : Nat → BitVec 64)

/-- The engine after one operation; a thrown exception leaves the object in the reported state
and the history continues. `none` is undefined behaviour. -/
def CountShiftOp.run (e : LCG64Count) : CountShiftOp → Option LCG64Count
  | .call => some (LCG64Count.call e).2
  | .discard n => e.discard n
  | .jump2 s => e.jump2 s
  | .split s n => match e.split s n with
    | .ok e' => some e'
    | .throws e' => some e'
    | .ub => none
  | .seed0 => some e.seed0
  | .seed s => some (e.seed s)
  | .seedGen g => some (e.seedGen g)

/-- Operations in the range where the code is correct: see C09, C10. -/
def CountShiftOp.InRange : CountShiftOp → Prop
  | .discard n => n.toNat < 2 ^ 61
  | .jump2 s => s < 64
  | _ => True

private theorem mod_modulus_lt (x : BitVec 64) : (x % modulus).toNat < M := by
  rw [BitVec.toNat_umod, modulus_toNat]; exact Nat.mod_lt _ (by decide)

private theorem odd_and_valid_run (e : LCG64Count) (he : Valid e) (ha : e.P.a.toNat % 2 = 1)
    (op : CountShiftOp) (hop : op.InRange) :
    ∃ e', op.run e = some e' ∧ Valid e' ∧ e'.P.a.toNat % 2 = 1 := by
  cases op with
  | call => exact ⟨_, rfl, valid_step e he, ha⟩
  | discard n =>
    refine ⟨_, jump_eq e he n ?_, valid_iterate e he _, by rw [P_iterate]; exact ha⟩
    simp only [CountShiftOp.InRange] at hop
    simp only [M]; omega
  | jump2 s =>
    exact ⟨_, jump2_eq e he s hop, valid_iterate e he _, by rw [P_iterate]; exact ha⟩
  | split s n =>
    by_cases hn : n.toNat < s.toNat
    · by_cases hs : 1 < s.toNat
      · obtain ⟨e', h, hstep, hv⟩ := split_eq e he ha s n hs hn
        refine ⟨e', by simp [CountShiftOp.run, h], hv, ?_⟩
        have : (step e').P = e'.P := rfl
        rw [← this, hstep]
        simp only [big, P_iterate]
        exact LCG64.odd_pow _ ha _
      · have hs : s = 1 := BitVec.eq_of_toNat_eq (by simp; omega)
        have hn0 : n = 0 := BitVec.eq_of_toNat_eq (by simp; omega)
        subst hs; subst hn0
        exact ⟨e, by simp only [CountShiftOp.run, C06_count_shift_split_one], he, ha⟩
    · obtain ⟨e', h⟩ := (C06_count_shift_split_throws_iff e s n).2 (Or.inr (by omega))
      have := C06_count_shift_split_throws_unchanged e e' s n h
      subst this
      exact ⟨e', by simp [CountShiftOp.run, h], he, ha⟩
  | seed0 => exact ⟨ofParam Default, rfl, by decide, by decide⟩
  | seed s => exact ⟨_, rfl, ⟨mod_modulus_lt _, he.2⟩, ha⟩
  | seedGen g => exact ⟨_, rfl, ⟨mod_modulus_lt _, he.2⟩, ha⟩

/-- After every history of in-range operations on an engine constructed with an odd multiplier
and an increment below the modulus, no undefined behaviour has occurred and the counter and
increment are below `2^61-1` (so that none of the counter additions wraps around). -/
theorem C12_count_shift_invariant (P : Param) (hinc : P.inc.toNat < 2 ^ 61 - 1)
    (ha : P.a.toNat % 2 = 1) (ops : List CountShiftOp) (hops : ∀ op ∈ ops, op.InRange) :
    ∃ e, ops.foldlM CountShiftOp.run (ofParam P) = some e ∧
      e.count.toNat < 2 ^ 61 - 1 ∧ e.P.inc.toNat < 2 ^ 61 - 1 := by
  have hM : M = 2 ^ 61 - 1 := by decide
  suffices h : ∀ (ops : List CountShiftOp) (e0 : LCG64Count), Valid e0 → e0.P.a.toNat % 2 = 1 →
      (∀ op ∈ ops, op.InRange) → ∃ e, ops.foldlM CountShiftOp.run e0 = some e ∧ Valid e by
    obtain ⟨e, h1, h2⟩ := h ops (ofParam P) ⟨by show 0 < M; decide, by rw [hM]; exact hinc⟩ ha hops
    exact ⟨e, h1, by rw [← hM]; exact h2.1, by rw [← hM]; exact h2.2⟩
  intro ops
  induction ops with
  | nil => intro e0 hv _ _; exact ⟨e0, rfl, hv⟩
  | cons op ops ih =>
    intro e0 hv ha hops
    obtain ⟨e1, h1, hv1, ha1⟩ := odd_and_valid_run e0 hv ha op (hops op (by simp))
    obtain ⟨e2, h2, hv2⟩ := ih e1 hv1 ha1 (fun op h => hops op (by simp [h]))
    exact ⟨e2, by simp [List.foldlM_cons, h1, h2], hv2⟩

example : ∀ P ∈ [Default, LEcuyer1, LEcuyer2, LEcuyer3],
    P.inc.toNat < 2 ^ 61 - 1 ∧ P.a.toNat % 2 = 1 := by decide
example : ∀ op ∈ [CountShiftOp.call, .discard 1000000, .split 4 2, .jump2 63], op.InRange := by
  intro op h
  simp only [List.mem_cons, List.not_mem_nil, or_false] at h
  rcases h with rfl | rfl | rfl | rfl <;> simp [CountShiftOp.InRange]

end Trng
