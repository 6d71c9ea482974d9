import Verif.Props.XoshiroPeriod

/-! Property C92 for xoshiro256plus: successive triples. -/
namespace Trng
open Spec Xoshiro

namespace Xoshiro

/-- The state whose next outputs (its own included) are `v0`, `v1`, `v2`, and for which `r3 ^ r1` of the following state is `w`. -/
def ofTriple (v0 v1 v2 w : BitVec 64) : Xoshiro :=
  let a := w ^^^ (v2 - rot w)
  let d := v1 - a
  let u := rotInv d
  let r0 := a ^^^ u
  let r3 := v0 - r0
  let r1 := r3 ^^^ u
  ⟨r0, r1, (d ^^^ w) ^^^ r1 ^^^ r0, r3⟩

theorem ofTriple_step (v0 v1 v2 w : BitVec 64) : (step (ofTriple v0 v1 v2 w)).r0 = w ^^^ (v2 - rot w) ∧
    (step (ofTriple v0 v1 v2 w)).r3 = v1 - (w ^^^ (v2 - rot w)) ∧ (step (ofTriple v0 v1 v2 w)).r1 = v1 - (w ^^^ (v2 - rot w)) ^^^ w := by
  rw [step_eq]
  simp only [ofTriple]
  generalize w ^^^ (v2 - rot w) = a
  generalize hd : v1 - a = d
  refine ⟨?_, ?_, ?_⟩
  · rw [xor_cancel_left, xor_cancel_mid]
  · rw [xor_cancel_left, rot_rotInv]
  · rw [xor_cancel_mid]
    generalize v0 - (a ^^^ rotInv d) ^^^ rotInv d = b
    rw [BitVec.xor_comm b, xor_cancel_mid]

theorem ofTriple_out (v0 v1 v2 w : BitVec 64) : (ofTriple v0 v1 v2 w).r0 + (ofTriple v0 v1 v2 w).r3 = v0 ∧
    (step (ofTriple v0 v1 v2 w)).r0 + (step (ofTriple v0 v1 v2 w)).r3 = v1 ∧
    (step (step (ofTriple v0 v1 v2 w))).r0 + (step (step (ofTriple v0 v1 v2 w))).r3 = v2 ∧
    (step (ofTriple v0 v1 v2 w)).r3 ^^^ (step (ofTriple v0 v1 v2 w)).r1 = w := by
  obtain ⟨h0, h3, h1⟩ := ofTriple_step v0 v1 v2 w
  have hx : (step (ofTriple v0 v1 v2 w)).r3 ^^^ (step (ofTriple v0 v1 v2 w)).r1 = w := by rw [h3, h1, xor_cancel_left]
  refine ⟨?_, ?_, ?_, hx⟩
  · show (ofTriple v0 v1 v2 w).r0 + (v0 - (ofTriple v0 v1 v2 w).r0) = v0
    rw [BitVec.add_comm, BitVec.sub_add_cancel]
  · rw [h0, h3, BitVec.add_comm, BitVec.sub_add_cancel]
  · rw [step_eq (step _)]
    show ((step (ofTriple v0 v1 v2 w)).r0 ^^^ ((step (ofTriple v0 v1 v2 w)).r3 ^^^ (step (ofTriple v0 v1 v2 w)).r1)) +
      rot ((step (ofTriple v0 v1 v2 w)).r3 ^^^ (step (ofTriple v0 v1 v2 w)).r1) = v2
    rw [hx, h0, BitVec.xor_comm w, xor_cancel_mid, BitVec.sub_add_cancel]

theorem ofTriple_eq (s : Xoshiro) : ofTriple (s.r0 + s.r3) ((step s).r0 + (step s).r3) ((step (step s)).r0 + (step (step s)).r3)
    ((step s).r3 ^^^ (step s).r1) = s := by
  have e2 : (step (step s)).r0 = (step s).r0 ^^^ ((step s).r3 ^^^ (step s).r1) ∧ (step (step s)).r3 = rot ((step s).r3 ^^^ (step s).r1) := by
    rw [step_eq (step s)]; exact ⟨rfl, rfl⟩
  have e1 : (step s).r0 = s.r0 ^^^ (s.r3 ^^^ s.r1) ∧ (step s).r3 = rot (s.r3 ^^^ s.r1) ∧ (step s).r1 = s.r1 ^^^ (s.r2 ^^^ s.r0) := by
    rw [step_eq s]; exact ⟨rfl, rfl, rfl⟩
  simp only [ofTriple]
  rw [e2.1, e2.2, BitVec.add_sub_cancel, BitVec.xor_comm (step s).r0, xor_cancel_left, BitVec.add_comm (step s).r0, BitVec.add_sub_cancel, xor_cancel_left,
    e1.1, e1.2.1, e1.2.2, rotInv_rot, xor_cancel_mid, BitVec.add_comm s.r0, BitVec.add_sub_cancel, xor_cancel_left]
  have : s.r1 ^^^ (s.r2 ^^^ s.r0) ^^^ s.r1 ^^^ s.r0 = s.r2 := by
    rw [BitVec.xor_comm s.r1, xor_cancel_mid, xor_cancel_mid]
  rw [this]

end Xoshiro

/-- xoshiro256plus is equidistributed in 3 dimensions with full 64 bit accuracy: of the `2^256 - 1` triples of successive values, every triple occurs
`2^64` times, the zero triple once less. -/
theorem C92_xoshiro_triples (e : Xoshiro) (h : e ≠ ⟨0, 0, 0, 0⟩) (v : Fin 3 → BitVec 64) :
    ((Finset.range (2 ^ 256 - 1)).filter fun k => ∀ i : Fin 3, nth call e (k + i.val) = v i).card = if v = fun _ => 0 then 2 ^ 64 - 1 else 2 ^ 64 := by
  classical
  let S : Set Xoshiro := {s | s.r0 + s.r3 = v 0 ∧ (step s).r0 + (step s).r3 = v 1 ∧ (step (step s)).r0 + (step (step s)).r3 = v 2}
  let eqv : S ≃ BitVec 64 :=
    { toFun := fun s => (step s.1).r3 ^^^ (step s.1).r1
      invFun := fun w => ⟨ofTriple (v 0) (v 1) (v 2) w, (ofTriple_out _ _ _ _).1, (ofTriple_out _ _ _ _).2.1, (ofTriple_out _ _ _ _).2.2.1⟩
      left_inv := by
        rintro ⟨s, h0, h1, h2⟩
        apply Subtype.ext
        show ofTriple (v 0) (v 1) (v 2) ((step s).r3 ^^^ (step s).r1) = s
        rw [← h0, ← h1, ← h2, ofTriple_eq]
      right_inv := fun w => (ofTriple_out _ _ _ _).2.2.2 }
  have hS : Nat.card S = 2 ^ 64 := by rw [Nat.card_congr eqv, card_bv]
  have hfin : Finite S := Nat.finite_of_card_ne_zero (by rw [hS]; positivity)
  have hSn : S.ncard = 2 ^ 64 := hS
  have hnth : ∀ n, nth call e n = (step^[n + 1] e).r0 + (step^[n + 1] e).r3 := fun n => by
    rw [nth, afterCalls_eq, Function.iterate_succ_apply']; rfl
  have hmem : ∀ n, (∀ i : Fin 3, nth call e (n + i.val) = v i) ↔ step^[n + 1] e ∈ S := fun n => by
    have e1 : step (step^[n + 1] e) = step^[n + 1 + 1] e := (Function.iterate_succ_apply' step (n + 1) e).symm
    have e2 : step (step^[n + 1 + 1] e) = step^[n + 2 + 1] e := (Function.iterate_succ_apply' step (n + 1 + 1) e).symm
    show _ ↔ _ ∧ _ ∧ _
    rw [e1, e2, ← hnth, ← hnth, ← hnth, Fin.forall_fin_succ, Fin.forall_fin_succ, Fin.forall_fin_succ]
    simp only [IsEmpty.forall_iff, and_true]
    rfl
  have key : (((Finset.range (2 ^ 256 - 1)).filter fun k => ∀ i : Fin 3, nth call e (k + i.val) = v i : Finset Nat) : Set Nat).ncard =
      (S \ {⟨0, 0, 0, 0⟩}).ncard := by
    refine Set.ncard_congr (fun n _ => step^[n + 1] e) ?_ ?_ ?_
    · intro n hn
      rw [Finset.mem_coe, Finset.mem_filter] at hn
      exact ⟨(hmem n).1 hn.2, iterate_ne_zero h _⟩
    · intro i j hi hj hij
      rw [Finset.mem_coe, Finset.mem_filter, Finset.mem_range] at hi hj
      have := (iterate_eq_iff e h (i + 1) (j + 1)).1 hij
      have := Nat.ModEq.add_right_cancel' 1 this
      rwa [Nat.ModEq, Nat.mod_eq_of_lt hi.1, Nat.mod_eq_of_lt hj.1] at this
    · rintro s ⟨hs, hne⟩
      obtain ⟨i, hi, he⟩ := exists_iterate' (step e) s (iterate_ne_zero h 1) hne
      rw [← Function.iterate_succ_apply] at he
      refine ⟨i, ?_, he.symm⟩
      rw [Finset.mem_coe, Finset.mem_filter, Finset.mem_range]
      exact ⟨hi, (hmem i).2 (he ▸ hs)⟩
  rw [Set.ncard_coe_finset] at key
  rw [key]
  by_cases hx : v = fun _ => 0
  · rw [if_pos hx, Set.ncard_sdiff_singleton_of_mem ?_, hSn]
    subst hx
    show _ ∧ _ ∧ _
    rw [step_zero, step_zero]
    exact ⟨rfl, rfl, rfl⟩
  · rw [if_neg hx, Set.sdiff_singleton_eq_self, hSn]
    rintro ⟨h0, h1, h2⟩
    rw [step_zero] at h1 h2
    rw [step_zero] at h2
    refine hx (funext fun i => ?_)
    match i with
    | 0 => exact h0.symm
    | 1 => exact h1.symm
    | 2 => exact h2.symm

example (v : Fin 3 → BitVec 64) (hv : v 1 = 7) :
    ((Finset.range (2 ^ 256 - 1)).filter fun k => ∀ i : Fin 3, nth call default (k + i.val) = v i).card = 2 ^ 64 := by
  rw [C92_xoshiro_triples _ (by decide), if_neg]
  intro h
  rw [h] at hv
  exact absurd hv (by decide)

end Trng
