import Verif.Model.Count128
import Verif.Proofs.Engine
import Verif.Proofs.LCG64Period
import Verif.Proofs.UInt128
namespace Trng.Count128

theorem words_eq (hi lo : BitVec 64) : words hi lo = hi ++ lo := by
  apply BitVec.eq_of_getLsbD_eq
  intro i hi'
  rw [words, BitVec.getLsbD_or, BitVec.getLsbD_shiftLeft, BitVec.getLsbD_setWidth,
    BitVec.getLsbD_setWidth, BitVec.getLsbD_append]
  by_cases h : i < 64
  · simp [h, hi']
  · have h1 : lo.getLsbD i = false := BitVec.getLsbD_of_ge _ _ (by omega)
    have h2 : i - 64 < 128 := by omega
    simp [h, hi', h1, h2]

theorem words_zero (x : BitVec 64) : words 0 x = BitVec.ofNat 128 x.toNat := by
  rw [words_eq]
  apply BitVec.eq_of_toNat_eq
  have := x.isLt
  rw [BitVec.toNat_append, BitVec.toNat_ofNat, Nat.mod_eq_of_lt (by omega)]
  simp

theorem step_iterate (e : Count128) (n : Nat) :
    step^[n] e = { e with r := e.r + BitVec.ofNat 128 n * e.P.increment } := by
  induction n with
  | zero => simp
  | succ n ih =>
    rw [Function.iterate_succ_apply', ih, step]
    simp only [Count128.mk.injEq, true_and]
    rw [BitVec.ofNat_add, show BitVec.ofNat 128 1 = 1 from rfl]
    ring

theorem jump_eq (e : Count128) (n : BitVec 64) : e.jump n = step^[n.toNat] e := by
  rw [step_iterate, jump, words_zero]

theorem jump2_eq (e : Count128) (s : BitVec 32) : e.jump2 s = step^[2 ^ (s.toNat % 128)] e := by
  rw [step_iterate, jump2, words_zero]
  congr 3
  apply BitVec.eq_of_toNat_eq
  rw [BitVec.toNat_shiftLeft, Nat.shiftLeft_eq, BitVec.toNat_ofNat, BitVec.toNat_ofNat]
  simp

theorem afterCalls_call (n : Nat) (e : Count128) : Spec.afterCalls call n e = step^[n] e :=
  Spec.afterCalls_eq_iterate _ _ _

/-- output of a state -/
def out (a b : BitVec 64) (r : BitVec 128) : BitVec 64 :=
  output ⟨0, a, b⟩ ((r >>> 64).setWidth 64) ((r &&& 0xffffffffffffffff#128).setWidth 64)

theorem nth_call (e : Count128) (k : Nat) :
    Spec.nth call e k = out e.P.a e.P.b (e.r + BitVec.ofNat 128 (k + 1) * e.P.increment) := by
  rw [Spec.nth, afterCalls_call]
  have : (call (step^[k] e)).1 = out (step^[k+1] e).P.a (step^[k+1] e).P.b (step^[k+1] e).r := by
    rw [Function.iterate_succ_apply']; rfl
  rw [this, step_iterate]

theorem mul_odd_injective {a : BitVec 64} (ha : a.toNat % 2 = 1) {x y : BitVec 64}
    (h : x * a = y * a) : x = y := by
  have h' : (x - y) * a = 0 := by rw [sub_mul, h, sub_self]
  exact sub_eq_zero.1 (LCG64.mul_eq_zero_of_odd _ _ ha h')

/-- For an odd multiplier the output determines `lo ^ hi`. -/
theorem output_injective {P : Param} (ha : P.a.toNat % 2 = 1) {hi lo hi' lo' : BitVec 64}
    (h : output P hi lo = output P hi' lo') : lo ^^^ hi = lo' ^^^ hi' := by
  have h1 := LCG64.xor_ushiftRight_injective (w := 64) 23 (by omega)
  have h2 := LCG64.xor_shiftLeft_injective (w := 64) 41 (by omega)
  have h3 := LCG64.xor_ushiftRight_injective (w := 64) 18 (by omega)
  have h4 : (lo ^^^ hi) * P.a + P.b = (lo' ^^^ hi') * P.a + P.b := h1 (h2 (h3 h))
  exact mul_odd_injective ha (add_right_cancel h4)

theorem out_injective {a b : BitVec 64} (ha : a.toNat % 2 = 1) {r r' : BitVec 128}
    (h : out a b r = out a b r') :
    (r.setWidth 64) ^^^ ((r >>> 64).setWidth 64) = (r'.setWidth 64) ^^^ ((r' >>> 64).setWidth 64) := by
  have e : ∀ r : BitVec 128, (r &&& 0xffffffffffffffff#128).setWidth 64 = r.setWidth 64 := by
    intro r
    apply BitVec.eq_of_toNat_eq
    rw [BitVec.toNat_setWidth, BitVec.toNat_setWidth, BitVec.toNat_and,
      show (0xffffffffffffffff#128).toNat = 2 ^ 64 - 1 from rfl, Nat.and_two_pow_sub_one_eq_mod,
      Nat.mod_mod]
  have := output_injective (P := ⟨0, a, b⟩) ha h
  rwa [e, e] at this

/-- Adding half of the range flips the top bit only. -/
theorem out_add_half {a b : BitVec 64} (ha : a.toNat % 2 = 1) (r : BitVec 128) :
    out a b (r + BitVec.ofNat 128 (2 ^ 127)) ≠ out a b r := by
  intro h
  have h1 := out_injective ha h
  have h2 : (r + BitVec.ofNat 128 (2 ^ 127)).setWidth 64 = r.setWidth 64 := by
    apply BitVec.eq_of_toNat_eq
    rw [BitVec.toNat_setWidth, BitVec.toNat_setWidth, BitVec.toNat_add, BitVec.toNat_ofNat]
    omega
  rw [h2] at h1
  have h3 : ((r + BitVec.ofNat 128 (2 ^ 127)) >>> 64).setWidth 64 = (r >>> 64).setWidth 64 := by
    have := congrArg (fun x => r.setWidth 64 ^^^ x) h1
    simpa only [← BitVec.xor_assoc, BitVec.xor_self, BitVec.zero_xor] using this
  have h4 := congrArg BitVec.toNat h3
  rw [BitVec.toNat_setWidth, BitVec.toNat_setWidth, BitVec.toNat_ushiftRight,
    BitVec.toNat_ushiftRight, Nat.shiftRight_eq_div_pow, Nat.shiftRight_eq_div_pow,
    BitVec.toNat_add, BitVec.toNat_ofNat] at h4
  have := r.isLt
  omega

end Trng.Count128
