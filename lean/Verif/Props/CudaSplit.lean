import Verif.Model.CudaSplit
import Verif.Props.LCG64
import Verif.Props.LCG64CountShift
import Verif.Props.Count128

/-!
C89 for lcg64, lcg64_shift, lcg64_count_shift and count128_lcg_shift: on CUDA `split` with valid arguments gives the same engine as on
the host; invalid arguments are not diagnosed.
-/
namespace Trng
open Trng.Spec

namespace CudaSplit

theorem not_invalid {s n : BitVec 32} (hn : n < s) : ¬ (s < 1 ∨ n ≥ s) := by
  rw [BitVec.lt_def] at hn
  rw [BitVec.lt_def, ge_iff_le, BitVec.le_def]
  simp; omega

theorem toNat_succ (n : BitVec 32) : (n.setWidth 64 + 1).toNat = n.toNat + 1 := by
  rw [BitVec.toNat_add, BitVec.toNat_setWidth]
  have := n.isLt
  simp; omega

theorem toNat_width (s : BitVec 32) : (s.setWidth 64).toNat = s.toNat := by
  rw [BitVec.toNat_setWidth]
  have := s.isLt
  omega

end CudaSplit
open CudaSplit

/-! ### lcg64, lcg64_shift -/

theorem C89_lcg64_split (e : LCG64) (s n : BitVec 32) (hn : n < s) : e.splitCuda s n = e.split s n := by
  unfold LCG64.splitCuda LCG64.split
  rw [if_neg (not_invalid hn)]

open LCG64 in
/-- Without the check: a stream number that is too large gives the numbers beginning with that number; with `s = 0` nothing
happens. -/
theorem C89_lcg64_split_unchecked (e : LCG64) (ha : e.P.a.toNat % 2 = 1) (s n : BitVec 32) :
    (1 < s → ∃ e', e.splitCuda s n = .ok e' ∧ Leapfrog call e e' s.toNat n.toNat ∧ Leapfrog callShift e e' s.toNat n.toNat) ∧
    (¬ 1 < s → e.splitCuda s n = .ok e) := by
  refine ⟨fun hs => ?_, fun hs => by unfold splitCuda; rw [if_neg hs]⟩
  have he : e.splitCuda s n = .ok (step^[backSteps] (big (step^[n.toNat + 1] e) s.toNat)) := by
    unfold splitCuda
    rw [if_pos hs, jump_eq, toNat_succ]
    simp only [Option.bind_eq_bind, Option.bind_some, f_eq, pow_eq, toNat_width, backward_eq, Outcome.ofOption, big, step_iterate]
  have hk : ∀ k, (step^[k + 1] (step^[backSteps] (big (step^[n.toNat + 1] e) s.toNat))).r =
      (step^[k * s.toNat + n.toNat + 1] e).r := by
    intro k
    rw [Function.iterate_succ_apply, step_backward, big_iterate, ← Function.iterate_add_apply]
    · congr 2; ring
    · exact odd_pow _ (by rw [step_iterate]; exact ha) _
  exact ⟨_, he, fun k => by rw [nth_call, nth_call, hk], fun k => by rw [nth_callShift, nth_callShift, hk]⟩

/-- On the host the same call throws. -/
example (e : LCG64) : e.split 2 7 = .throws e ∧ e.splitCuda 2 7 ≠ .throws e ∧ e.splitCuda 0 0 = .ok e := by
  refine ⟨by unfold LCG64.split; rw [if_pos (by decide)], ?_, by unfold LCG64.splitCuda; rw [if_neg (by decide)]⟩
  unfold LCG64.splitCuda
  rw [if_pos (by decide)]
  simp only [Outcome.ofOption]
  split <;> simp

example : (⟨LCG64.Default, 0⟩ : LCG64).P.a.toNat % 2 = 1 ∧ (1 : BitVec 32) < 2 := by decide

/-! ### lcg64_count_shift -/

theorem C89_count_shift_split (e : LCG64Count) (s n : BitVec 32) (hn : n < s) : e.splitCuda s n = e.split s n := by
  unfold LCG64Count.splitCuda LCG64Count.split
  rw [if_neg (not_invalid hn)]

open LCG64Count in
theorem C89_count_shift_split_unchecked (e : LCG64Count) (he : Valid e) (ha : e.P.a.toNat % 2 = 1) (s n : BitVec 32) :
    (1 < s → ∃ e', e.splitCuda s n = .ok e' ∧ Leapfrog call e e' s.toNat n.toNat ∧ Valid e') ∧
    (¬ 1 < s → e.splitCuda s n = .ok e) := by
  refine ⟨fun hs => ?_, fun hs => by unfold splitCuda; rw [if_neg hs]⟩
  have hodd : (big (step^[n.toNat + 1] e) s).P.a.toNat % 2 = 1 := by
    simp only [big, P_iterate]
    exact LCG64.odd_pow _ ha _
  obtain ⟨e', hb, hstep, hv, -⟩ := backward_eq _
    (valid_big _ (valid_iterate e he (n.toNat + 1)) s) hodd
  refine ⟨e', ?_, fun k => ?_, hv⟩
  · unfold splitCuda
    rw [if_pos hs, jump_eq e he _ (by rw [toNat_succ]; have := n.isLt; simp only [M]; omega), toNat_succ]
    simp only [Option.bind_eq_bind, Option.bind_some, LCG64.f_eq, LCG64.pow_eq, setWidth_toNat]
    simp only [big] at hb
    rw [hb]; rfl
  · rw [nth_call, nth_call, Function.iterate_succ_apply, hstep]
    obtain ⟨g1, g2⟩ := big_iterate _ (valid_iterate e he (n.toNat + 1)) s k
    rw [g1, g2, ← Function.iterate_add_apply,
      show s.toNat * k + (n.toNat + 1) = k * s.toNat + n.toNat + 1 by ring]

open LCG64Count in
example : Valid (ofParam LEcuyer2) ∧ (ofParam LEcuyer2).P.a.toNat % 2 = 1 ∧ (1 : BitVec 32) < 8 := by decide

/-! ### count128_lcg_shift -/

theorem C89_count128_split (e : Count128) (s n : BitVec 32) (hn : n < s) : e.splitCuda s n = e.split s n := by
  unfold Count128.splitCuda Count128.split
  rw [if_neg (not_invalid hn)]

open Count128 in
theorem C89_count128_split_unchecked (e : Count128) (s n : BitVec 32) :
    (1 < s → ∃ e', e.splitCuda s n = .ok e' ∧ Leapfrog call e e' s.toNat n.toNat) ∧
    (¬ 1 < s → e.splitCuda s n = .ok e) := by
  refine ⟨fun hs => ⟨_, by unfold splitCuda; rw [if_pos hs], fun k => ?_⟩, fun hs => by unfold splitCuda; rw [if_neg hs]⟩
  rw [nth_call, nth_call]
  simp only
  congr 1
  rw [words_zero, words_zero, toNat_width, toNat_width, BitVec.ofNat_add, BitVec.ofNat_add, BitVec.ofNat_add, BitVec.ofNat_mul]
  generalize BitVec.ofNat 128 n.toNat = N
  generalize BitVec.ofNat 128 s.toNat = S
  generalize BitVec.ofNat 128 k = K
  have : BitVec.ofNat 128 1 = 1 := rfl
  rw [this]
  ring

end Trng
