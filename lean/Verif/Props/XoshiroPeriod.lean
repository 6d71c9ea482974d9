import Verif.Proofs.XoshiroPeriod
import Verif.Spec.Engine

/-! C41 and, as a consequence, that xoshiro256plus engines with equal outputs are equal. -/
namespace Trng
open Spec Xoshiro

/-- the lowest bit of the value returned next, without its effect on the state -/
theorem Xoshiro.out_bit (e : Xoshiro) : ((call e).1).getLsbD 0 = (e.step.r0.getLsbD 0 ^^ e.step.r3.getLsbD 0) := by
  show (e.step.r0 + e.step.r3).getLsbD 0 = _
  rw [BitVec.getLsbD_add (by omega)]
  simp

/-- states with the same outputs are the same -/
theorem Xoshiro.eq_of_future {e e' : Xoshiro} (h : SameFuture call e e') : e = e' := by
  by_contra hne
  have hw : add e e' ≠ ⟨0, 0, 0, 0⟩ := by
    intro hc
    apply hne
    simp only [add, Xoshiro.mk.injEq] at hc
    cases e; cases e'
    simpa using hc
  have hadd : ∀ n, step^[n] (add e e') = add (step^[n] e) (step^[n] e') := by
    intro n
    induction n with
    | zero => rfl
    | succ n ih => rw [Function.iterate_succ_apply', ih, step_add, Function.iterate_succ_apply', Function.iterate_succ_apply']
  have hs : step (add e e') ≠ ⟨0, 0, 0, 0⟩ := iterate_ne_zero hw 1
  obtain ⟨k, _, hk⟩ := exists_iterate' (step (add e e')) ⟨1, 0, 0, 0⟩ hs (by decide)
  rw [← Function.iterate_succ_apply, hadd] at hk
  have h0 := congrArg (fun x : BitVec 64 => x.getLsbD 0) (h k)
  simp only [nth, afterCalls_eq, out_bit, ← Function.iterate_succ_apply' step] at h0
  have h1 := congrArg (fun s : Xoshiro => s.r0.getLsbD 0 ^^ s.r3.getLsbD 0) hk
  simp only [add, BitVec.getLsbD_xor] at h1
  have h2 : ((1 : BitVec 64).getLsbD 0 ^^ (0 : BitVec 64).getLsbD 0) = true := by decide
  rw [h2] at h1
  revert h0 h1
  cases (step^[k.succ] e).r0.getLsbD 0 <;> cases (step^[k.succ] e).r3.getLsbD 0 <;>
    cases (step^[k.succ] e').r0.getLsbD 0 <;> cases (step^[k.succ] e').r3.getLsbD 0 <;> decide

/-! ### C41 -/

/-- From every non-zero state the engine comes back to that state after exactly `2^256 - 1` calls. -/
theorem C41_period (e : Xoshiro) (h : e ≠ ⟨0, 0, 0, 0⟩) : ExactPeriod call e (2 ^ 256 - 1) := by
  have key : ∀ n, afterCalls call n e = e ↔ n ≡ 0 [MOD 2 ^ 256 - 1] := by
    intro n
    rw [afterCalls_eq]
    exact iterate_eq_iff e h n 0
  refine ⟨by omega, (key _).2 ?_, fun t h0 ht hc => ?_⟩
  · exact (Nat.modEq_zero_iff_dvd).2 dvd_rfl
  · have := Nat.le_of_dvd h0 (Nat.modEq_zero_iff_dvd.1 ((key t).1 hc))
    omega

/-- The number of calls after which a non-zero state recurs are exactly the multiples of
`2^256 - 1`. -/
theorem C41_returns (e : Xoshiro) (h : e ≠ ⟨0, 0, 0, 0⟩) (n : Nat) :
    afterCalls call n e = e ↔ (2 ^ 256 - 1) ∣ n := by
  rw [afterCalls_eq, ← Nat.modEq_zero_iff_dvd]
  exact iterate_eq_iff e h n 0

/-- During one period every non-zero state occurs exactly once. -/
theorem C41_visits_all (e e' : Xoshiro) (h : e ≠ ⟨0, 0, 0, 0⟩) (h' : e' ≠ ⟨0, 0, 0, 0⟩) :
    ∃! n, n < 2 ^ 256 - 1 ∧ afterCalls call n e = e' := by
  obtain ⟨i, hi, he⟩ := exists_iterate' e e' h h'
  refine ⟨i, ⟨hi, by rw [afterCalls_eq]; exact he.symm⟩, ?_⟩
  rintro j ⟨hj, hje⟩
  rw [afterCalls_eq, he, iterate_eq_iff e h] at hje
  rwa [Nat.ModEq, Nat.mod_eq_of_lt hi, Nat.mod_eq_of_lt hj] at hje

/-- The sequence of returned values has the same period, not a shorter one. -/
theorem C41_output_period (e : Xoshiro) (h : e ≠ ⟨0, 0, 0, 0⟩) : ExactOutputPeriod call e (2 ^ 256 - 1) := by
  obtain ⟨hT, hp, hmin⟩ := C41_period e h
  have hnth : ∀ t k, nth call e (k + t) = nth call (afterCalls call t e) k := by
    intro t k
    simp only [nth, afterCalls_eq, Function.iterate_add_apply]
  refine ⟨hT, fun k => by rw [hnth, hp], fun t h0 ht => ?_⟩
  by_contra hc
  push Not at hc
  exact hmin t h0 ht (eq_of_future (fun k => by rw [← hnth]; exact hc k))

theorem Xoshiro.card_bv : Nat.card (BitVec 64) = 2 ^ 64 := by
  rw [Nat.card_congr (⟨BitVec.toFin, BitVec.ofFin, fun _ => rfl, fun _ => rfl⟩ : BitVec 64 ≃ Fin (2 ^ 64)), Nat.card_fin]

/-- Over one period every 64-bit value is returned `2^192` times, except that zero is returned
once less. -/
theorem C41_uniform (e : Xoshiro) (h : e ≠ ⟨0, 0, 0, 0⟩) (x : BitVec 64) :
    ((Finset.range (2 ^ 256 - 1)).filter fun n => nth call e n = x).card = if x = 0 then 2 ^ 192 - 1 else 2 ^ 192 := by
  classical
  -- the states with output `x`
  let S : Set Xoshiro := {s | s.r0 + s.r3 = x}
  let eqv : S ≃ BitVec 64 × BitVec 64 × BitVec 64 :=
    { toFun := fun s => (s.1.r1, s.1.r2, s.1.r3)
      invFun := fun p => ⟨⟨x - p.2.2, p.1, p.2.1, p.2.2⟩, by simp [S]⟩
      left_inv := by
        rintro ⟨⟨a, b, c, d⟩, hs⟩
        have hs : a + d = x := hs
        apply Subtype.ext
        simp only [Xoshiro.mk.injEq, and_true]
        rw [← hs, BitVec.add_sub_cancel]
      right_inv := fun p => rfl }
  have hS : Nat.card S = 2 ^ 192 := by
    rw [Nat.card_congr eqv, Nat.card_prod, Nat.card_prod, card_bv, ← pow_add, ← pow_add]
  have hfin : Finite S := Nat.finite_of_card_ne_zero (by rw [hS]; positivity)
  have hSn : S.ncard = 2 ^ 192 := hS
  have key : (((Finset.range (2 ^ 256 - 1)).filter fun n => nth call e n = x : Finset Nat) : Set Nat).ncard =
      (S \ {⟨0, 0, 0, 0⟩}).ncard := by
    refine Set.ncard_congr (fun n _ => step^[n + 1] e) ?_ ?_ ?_
    · intro n hn
      rw [Finset.mem_coe, Finset.mem_filter] at hn
      refine ⟨?_, iterate_ne_zero h _⟩
      have := hn.2
      rw [nth, afterCalls_eq] at this
      rw [Function.iterate_succ_apply']
      exact this
    · intro i j hi hj hij
      rw [Finset.mem_coe, Finset.mem_filter, Finset.mem_range] at hi hj
      have := (iterate_eq_iff e h (i + 1) (j + 1)).1 hij
      have := Nat.ModEq.add_right_cancel' 1 this
      rwa [Nat.ModEq, Nat.mod_eq_of_lt hi.1, Nat.mod_eq_of_lt hj.1] at this
    · rintro s ⟨hs, hne⟩
      have hs : s.r0 + s.r3 = x := hs
      obtain ⟨i, hi, he⟩ := exists_iterate' (step e) s (iterate_ne_zero h 1) hne
      rw [← Function.iterate_succ_apply] at he
      refine ⟨i, ?_, he.symm⟩
      rw [Finset.mem_coe, Finset.mem_filter, Finset.mem_range]
      refine ⟨hi, ?_⟩
      rw [nth, afterCalls_eq]
      show (step (step^[i] e)).r0 + (step (step^[i] e)).r3 = x
      rw [← Function.iterate_succ_apply' step, ← he, hs]
  rw [Set.ncard_coe_finset] at key
  rw [key]
  by_cases hx : x = 0
  · rw [if_pos hx, Set.ncard_sdiff_singleton_of_mem (by subst hx; rfl), hSn]
  · rw [if_neg hx, Set.sdiff_singleton_eq_self, hSn]
    intro hc
    have hc : (0 : BitVec 64) + 0 = x := hc
    exact hx (by rw [← hc]; rfl)

/-- The zero state, which no constructor and no seeding function produces (C39), never changes. -/
theorem C41_zero_stays (n : Nat) : afterCalls call n (⟨0, 0, 0, 0⟩ : Xoshiro) = ⟨0, 0, 0, 0⟩ := by
  rw [afterCalls_eq]
  exact Function.iterate_fixed step_zero n

/-- All seeded engines run through the same cycle. -/
example : ExactPeriod call default (2 ^ 256 - 1) := C41_period _ (by decide)
example (s : BitVec 64) : ∃! n, n < 2 ^ 256 - 1 ∧ afterCalls call n default = ⟨s, 1, 2, 3⟩ :=
  C41_visits_all _ _ (by decide) (by simp)

/-! ### C38 -/

/-- Engines that are told apart by `==` return different values at some time. -/
theorem C38_xoshiro_distinguishes (e e' : Xoshiro) (h : e.eq e' = false) : ∃ k, nth call e k ≠ nth call e' k := by
  by_contra hc
  push Not at hc
  have := eq_of_future (e := e) (e' := e') hc
  subst this
  cases e
  simp [Xoshiro.eq] at h

example : Xoshiro.eq default ⟨1, 0, 0, 0⟩ = false := by decide

end Trng
