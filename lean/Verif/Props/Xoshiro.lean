import Verif.Proofs.Xoshiro
import Verif.Spec.Engine

/-! C39, C40 and the xoshiro256plus parts of C38, C65, C66. -/
namespace Trng
open Spec Xoshiro

/-! ### C39 -/

/-- The transition is linear over GF(2) (for the bitwise exclusive or of states). -/
theorem C39_xoshiro_linear (a b : Xoshiro) :
    (call ⟨a.r0 ^^^ b.r0, a.r1 ^^^ b.r1, a.r2 ^^^ b.r2, a.r3 ^^^ b.r3⟩).2 =
      ⟨(call a).2.r0 ^^^ (call b).2.r0, (call a).2.r1 ^^^ (call b).2.r1,
       (call a).2.r2 ^^^ (call b).2.r2, (call a).2.r3 ^^^ (call b).2.r3⟩ :=
  step_add a b

/-- The transition is a bijection of the states. -/
theorem C39_xoshiro_bijective : Function.Bijective fun e : Xoshiro => (call e).2 := step_bijective

/-- The zero state is never reached from another state. -/
theorem C39_xoshiro_nonzero (e : Xoshiro) (h : e ≠ ⟨0, 0, 0, 0⟩) (n : Nat) : afterCalls call n e ≠ ⟨0, 0, 0, 0⟩ := by
  rw [afterCalls_eq]; exact iterate_ne_zero h n

example : Xoshiro.default ≠ ⟨0, 0, 0, 0⟩ := by decide

theorem fix_ne_zero (e : Xoshiro) : fix e ≠ ⟨0, 0, 0, 0⟩ := by
  rw [fix]
  split
  · rename_i h
    rw [h.1]
    intro hc
    have : (0 ||| 1#64 <<< 63) = 0#64 := congrArg Xoshiro.r0 hc
    exact absurd this (by decide)
  · rename_i h
    rintro rfl
    exact h ⟨rfl, rfl, rfl, rfl⟩

/-- No way of seeding leads to the zero state. -/
theorem C39_xoshiro_seeds (e : Xoshiro) (s s0 s1 s2 s3 : BitVec 64) (g : Nat → BitVec 64) :
    Xoshiro.default ≠ ⟨0, 0, 0, 0⟩ ∧ e.seed s ≠ ⟨0, 0, 0, 0⟩ ∧ e.seed4 s0 s1 s2 s3 ≠ ⟨0, 0, 0, 0⟩ ∧
      e.seedGen g ≠ ⟨0, 0, 0, 0⟩ :=
  ⟨by decide, fix_ne_zero _, fix_ne_zero _, fix_ne_zero _⟩

theorem fix_of_ne {e : Xoshiro} (h : e ≠ ⟨0, 0, 0, 0⟩) : fix e = e := by
  rw [fix, if_neg]
  rintro ⟨h0, h1, h2, h3⟩
  apply h
  cases e
  simp_all

/-- Seeding with four words (not all zero) sets exactly these words; seeding from a generator of
32-bit values concatenates pairs of values. -/
theorem C39_xoshiro_seed_words (e : Xoshiro) (s : Fin 4 → BitVec 64) (hs : s ≠ fun _ => 0) :
    e.seed4 (s 0) (s 1) (s 2) (s 3) = ⟨s 0, s 1, s 2, s 3⟩ ∧
    ∀ g : Nat → BitVec 64, (∀ k, (g k).toNat < 2 ^ 32) →
      (∀ k : Fin 4, (s k).toNat = (g (2 * k.val)).toNat * 2 ^ 32 + (g (2 * k.val + 1)).toNat) →
      e.seedGen g = ⟨s 0, s 1, s 2, s 3⟩ := by
  have hne : (⟨s 0, s 1, s 2, s 3⟩ : Xoshiro) ≠ ⟨0, 0, 0, 0⟩ := by
    intro hc
    apply hs
    injection hc with h0 h1 h2 h3
    funext k
    have : k = 0 ∨ k = 1 ∨ k = 2 ∨ k = 3 := by omega
    rcases this with h | h | h | h <;> subst h <;> assumption
  refine ⟨fix_of_ne hne, ?_⟩
  intro g hg hsg
  have hw : ∀ k : Fin 4, ((0#64 <<< 32) + g (2 * k.val)) <<< 32 + g (2 * k.val + 1) = s k := by
    intro k
    apply BitVec.eq_of_toNat_eq
    have h1 := hg (2 * k.val)
    have h2 := hg (2 * k.val + 1)
    rw [hsg k]
    simp only [BitVec.toNat_add, BitVec.toNat_shiftLeft, Nat.shiftLeft_eq]
    simp
    omega
  have e0 : ((0#64 <<< 32) + g (2 * 0)) <<< 32 + g (2 * 0 + 1) = s 0 := hw 0
  have e1 : ((0#64 <<< 32) + g (2 * 1)) <<< 32 + g (2 * 1 + 1) = s 1 := hw 1
  have e2 : ((0#64 <<< 32) + g (2 * 2)) <<< 32 + g (2 * 2 + 1) = s 2 := hw 2
  have e3 : ((0#64 <<< 32) + g (2 * 3)) <<< 32 + g (2 * 3 + 1) = s 3 := hw 3
  rw [seedGen]
  simp only [e0, e1, e2, e3]
  exact fix_of_ne hne

example : (fun k : Fin 4 => BitVec.ofNat 64 (k.val * 2 ^ 32 + 7)) ≠ fun _ => 0 := by
  intro h; exact absurd (congrFun h 0) (by decide)

/-! ### C40 -/

/-- `discard(n)` is `n` calls. -/
theorem C40_xoshiro_discard (e : Xoshiro) (n : BitVec 64) : e.discard n = afterCalls call n.toNat e := by
  rw [afterCalls_eq]; exact jump_eq e n

/-- `jump(n)` is `n` calls. -/
theorem C40_xoshiro_jump (e : Xoshiro) (n : BitVec 64) : e.jump n = afterCalls call n.toNat e := by
  rw [afterCalls_eq]; exact jump_eq e n

/-- `jump2(s)` is `2^s` calls, for every `s` (also above 64 and above 256). -/
theorem C40_xoshiro_jump2 (e : Xoshiro) (s : BitVec 32) : e.jump2 s = afterCalls call (2 ^ s.toNat) e := by
  rw [afterCalls_eq]; exact jump2_eq e s

/-! ### C38, C65, C66 -/

/-- Engines are equal exactly if they have the same state, and then have the same future. -/
theorem C38_xoshiro_eq (e e' : Xoshiro) : (e.eq e' = true ↔ e = e') ∧ (e.eq e' = true → SameFuture call e e') := by
  have key : e.eq e' = true ↔ e = e' := by
    cases e; cases e'
    simp [Xoshiro.eq, and_assoc]
  exact ⟨key, fun h => by rw [key.1 h]; exact fun _ => rfl⟩

/-- Block splitting with `discard`. -/
theorem C65_xoshiro_block_splitting (e : Xoshiro) (p b : Nat) (hpb : p * b < 2 ^ 64) :
    (List.range p).flatMap (fun rank => firstOutputs call b (e.discard (BitVec.ofNat 64 (rank * b)))) =
      firstOutputs call (p * b) e := by
  refine firstOutputs_blocks call p b e _ (fun rank hr => ?_)
  have hlt : rank * b < 2 ^ 64 := lt_of_le_of_lt (Nat.mul_le_mul_right b hr.le) hpb
  rw [C40_xoshiro_discard, BitVec.toNat_ofNat, Nat.mod_eq_of_lt hlt]

/-- Seeding forgets the history. -/
theorem C66_xoshiro_seed_forgets (e e' : Xoshiro) (s s0 s1 s2 s3 : BitVec 64) (g : Nat → BitVec 64) :
    e.seed s = e'.seed s ∧ e.seed4 s0 s1 s2 s3 = e'.seed4 s0 s1 s2 s3 ∧ e.seedGen g = e'.seedGen g :=
  ⟨rfl, rfl, rfl⟩

end Trng
