import Verif.Props.Count128
import Verif.Props.LCG64
/- C66: seeding of lcg64, lcg64_shift and count128_lcg_shift. -/
namespace Trng
open Spec

/-- `seed` forgets the earlier history of the engine and keeps its parameters. -/
theorem C66_lcg64_seed_forgets (e e' : LCG64) (h : e.P = e'.P) (s : BitVec 64) (g : Nat → BitVec 64) :
    e.seed s = e'.seed s ∧ e.seedGen g = e'.seedGen g ∧ e.seed0 = LCG64.ofParam LCG64.Default ∧
    (e.seed s).P = e.P ∧ (e.seedGen g).P = e.P := by
  cases e; cases e'
  simp only at h
  subst h
  exact ⟨rfl, rfl, rfl, rfl, rfl⟩

/-- Different seeds give different sequences, from the first number on. -/
theorem C66_lcg64_seed_distinct (e : LCG64) (ha : e.P.a.toNat % 2 = 1) (s s' : BitVec 64)
    (h : s ≠ s') :
    nth LCG64.call (e.seed s) 0 ≠ nth LCG64.call (e.seed s') 0 ∧
    nth LCG64.callShift (e.seed s) 0 ≠ nth LCG64.callShift (e.seed s') 0 := by
  have key : e.P.a * s + e.P.b ≠ e.P.a * s' + e.P.b := by
    intro hc
    apply h
    apply Count128.mul_odd_injective ha
    rw [BitVec.mul_comm, BitVec.mul_comm s']
    exact add_right_cancel hc
  exact ⟨key, fun hc => key (LCG64.shiftOut_injective hc)⟩

/-- Seeding from a generator of 32-bit numbers uses the first two numbers, the first one as the
high half. -/
theorem C66_lcg64_seedGen_state (e : LCG64) (g : Nat → BitVec 32) :
    (e.seedGen (fun i => (g i).setWidth 64)).r.toNat = (g 0).toNat * 2 ^ 32 + (g 1).toNat := by
  have h0 := (g 0).isLt
  have h1 := (g 1).isLt
  simp only [LCG64.seedGen, List.range_succ, List.range_zero, List.nil_append, List.cons_append,
    List.foldl_cons, List.foldl_nil]
  rw [BitVec.toNat_add, BitVec.toNat_shiftLeft, BitVec.toNat_add, BitVec.toNat_setWidth,
    BitVec.toNat_setWidth, Nat.shiftLeft_eq]
  simp only [BitVec.zero_shiftLeft, BitVec.toNat_ofNat, BitVec.ofNat_eq_ofNat]
  omega

/-- Hence two 32-bit seeding generators that differ in their first two numbers give different
sequences. -/
theorem C66_lcg64_seedGen_distinct (e : LCG64) (ha : e.P.a.toNat % 2 = 1) (g g' : Nat → BitVec 32)
    (h : g 0 ≠ g' 0 ∨ g 1 ≠ g' 1) :
    nth LCG64.call (e.seedGen fun i => (g i).setWidth 64) 0 ≠
      nth LCG64.call (e.seedGen fun i => (g' i).setWidth 64) 0 ∧
    nth LCG64.callShift (e.seedGen fun i => (g i).setWidth 64) 0 ≠
      nth LCG64.callShift (e.seedGen fun i => (g' i).setWidth 64) 0 := by
  refine C66_lcg64_seed_distinct e ha _ _ fun hc => ?_
  have hc' := congrArg BitVec.toNat hc
  have e1 := C66_lcg64_seedGen_state e g
  have e2 := C66_lcg64_seedGen_state e g'
  simp only [LCG64.seedGen] at e1 e2
  rw [e1, e2] at hc'
  have h0 := (g 0).isLt
  have h1 := (g 1).isLt
  have h0' := (g' 0).isLt
  have h1' := (g' 1).isLt
  rcases h with h | h
  · exact h (BitVec.eq_of_toNat_eq (by omega))
  · exact h (BitVec.eq_of_toNat_eq (by omega))

/-- non-vacuity: the default multiplier is odd -/
example : (LCG64.ofParam LCG64.Default).P.a.toNat % 2 = 1 ∧ (1 : BitVec 64) ≠ 2 := by decide

/-- Two count128_lcg_shift engines with the same (odd) increment and multiplier but different
states never produce the same sequence. -/
theorem C66_count128_states_distinct (P : Count128.Param) (h : P.increment.toNat % 2 = 1)
    (ha : P.a.toNat % 2 = 1) (r r' : BitVec 128) (hr : r ≠ r') :
    ¬ SameFuture Count128.call ⟨P, r⟩ ⟨P, r'⟩ := by
  intro hs
  -- r' is reached from r
  have hfull : ∃ t, t < 2 ^ 128 ∧ r' = r + BitVec.ofNat 128 t * P.increment := by
    have hinj : Function.Injective (fun t : BitVec 128 => t * P.increment) := by
      intro x y hxy
      have h1 := congrArg BitVec.toNat hxy
      simp only [BitVec.toNat_mul] at h1
      have hco : Nat.Coprime (2 ^ 128) P.increment.toNat := by
        refine Nat.Coprime.pow_left _ ?_
        rw [Nat.coprime_comm, Nat.coprime_iff_gcd_eq_one, Nat.gcd_comm, Nat.gcd_rec, h]; rfl
      have h2 : x.toNat ≡ y.toNat [MOD 2 ^ 128] :=
        Nat.ModEq.cancel_right_of_coprime (by rwa [Nat.coprime_iff_gcd_eq_one] at hco) h1
      apply BitVec.eq_of_toNat_eq
      have := h2
      rwa [Nat.ModEq, Nat.mod_eq_of_lt x.isLt, Nat.mod_eq_of_lt y.isLt] at this
    have hsurj : Function.Surjective (fun t : BitVec 128 => t * P.increment) := by
      have : Finite (BitVec 128) := Finite.of_injective BitVec.toFin (fun _ _ => BitVec.toFin_inj.1)
      exact Finite.surjective_of_injective hinj
    obtain ⟨t, ht⟩ := hsurj (r' - r)
    refine ⟨t.toNat, t.isLt, ?_⟩
    have ht' : t * P.increment = r' - r := ht
    rw [BitVec.ofNat_toNat, BitVec.setWidth_eq, ht']
    rw [add_sub_cancel]
  obtain ⟨t, htlt, ht⟩ := hfull
  have ht0 : 0 < t := by
    rcases Nat.eq_zero_or_pos t with h0 | h0
    · subst h0
      exact absurd (by simpa using ht.symm) hr
    · exact h0
  obtain ⟨k, hk⟩ := (C14_count128_output_period ⟨P, r⟩ h ha).2.2 t ht0 htlt
  apply hk
  have e1 := hs k
  rw [e1, Count128.nth_call, Count128.nth_call]
  simp only
  rw [ht]
  congr 1
  rw [show k + t + 1 = t + (k + 1) by omega, BitVec.ofNat_add, BitVec.add_mul, BitVec.add_assoc]

/-- In particular different integer seeds give different sequences. -/
theorem C66_count128_seed_distinct (e : Count128) (h : e.P.increment.toNat % 2 = 1)
    (ha : e.P.a.toNat % 2 = 1) (s s' : BitVec 64) (hs : s ≠ s') :
    ¬ SameFuture Count128.call (e.seed s) (e.seed s') := by
  refine C66_count128_states_distinct e.P h ha _ _ fun hc => hs ?_
  rw [Count128.words_eq, Count128.words_eq] at hc
  have := congrArg BitVec.toNat hc
  rw [BitVec.toNat_append, BitVec.toNat_append] at this
  have h1 := s.isLt
  have h2 := s'.isLt
  rw [Nat.shiftLeft_eq, Nat.shiftLeft_eq] at this
  have e1 : s.toNat * 2 ^ 64 ||| s.toNat = s.toNat * 2 ^ 64 + s.toNat := by
    rw [← Nat.shiftLeft_eq, Nat.shiftLeft_add_eq_or_of_lt h1]
  have e2 : s'.toNat * 2 ^ 64 ||| s'.toNat = s'.toNat * 2 ^ 64 + s'.toNat := by
    rw [← Nat.shiftLeft_eq, Nat.shiftLeft_add_eq_or_of_lt h2]
  rw [e1, e2] at this
  exact BitVec.eq_of_toNat_eq (by omega)

/-- non-vacuity: the built-in parameters -/
example : Count128.Default.increment.toNat % 2 = 1 ∧ Count128.Default.a.toNat % 2 = 1 ∧
    (5 : BitVec 64) ≠ 6 := by decide +kernel

end Trng
