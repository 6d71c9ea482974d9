import Verif.Proofs.Blocks
import Verif.Props.LCG64
import Verif.Props.LCG64CountShift
import Verif.Props.Count128
import Verif.Props.Minstd
import Verif.Props.MT
import Verif.Props.MRG
/-
C65 for the remaining engines (lcg64, the lagged Fibonacci engines, xoshiro256plus and block splitting of
the multiple recursive generators are in the files of those engines).

Block splitting: `p` ranks work with copies of one engine; rank number `rank` skips `rank * b` values and then
takes `b` values.  Leapfrog: rank number `rank` calls `split(p, rank)` and takes `b` values.  Both must give the
first `p * b` values of the one engine, in the same order or in another order; then every sum over the values,
and every other quantity that does not depend on the order, is the same for all numbers of processes.
-/
namespace Trng
open Spec

private theorem key {p b rank B : Nat} (hr : rank < p) (hpb : p * b < B) (hB : B ≤ 2 ^ 64) :
    (BitVec.ofNat 64 (rank * b)).toNat = rank * b ∧ rank * b < B := by
  have hlt : rank * b < B := lt_of_le_of_lt (Nat.mul_le_mul_right b hr.le) hpb
  rw [BitVec.toNat_ofNat]
  exact ⟨Nat.mod_eq_of_lt (lt_of_lt_of_le hlt hB), hlt⟩

private theorem rank_lt {p rank : Nat} (hr : rank < p) (hp : p < 2 ^ 32) :
    BitVec.ofNat 32 rank < BitVec.ofNat 32 p ∧ (BitVec.ofNat 32 rank).toNat = rank ∧
      (BitVec.ofNat 32 p).toNat = p := by
  have h1 : (BitVec.ofNat 32 rank).toNat = rank := by
    rw [BitVec.toNat_ofNat]; exact Nat.mod_eq_of_lt (hr.trans hp)
  have h2 : (BitVec.ofNat 32 p).toNat = p := by rw [BitVec.toNat_ofNat]; exact Nat.mod_eq_of_lt hp
  exact ⟨by rw [BitVec.lt_def, h1, h2]; exact hr, h1, h2⟩

/-! ### block splitting -/

theorem C65_lcg64_shift_block_splitting (e : LCG64) (p b : Nat) (hpb : p * b < 2 ^ 64) :
    ∃ E : Nat → LCG64, (∀ rank, rank < p → e.jump (BitVec.ofNat 64 (rank * b)) = some (E rank)) ∧
      (List.range p).flatMap (fun rank => firstOutputs LCG64.callShift b (E rank)) =
        firstOutputs LCG64.callShift (p * b) e := by
  refine ⟨fun rank => afterCalls LCG64.callShift (rank * b) e, fun rank hr => ?_,
    firstOutputs_blocks _ p b e _ (fun _ _ => rfl)⟩
  rw [C01_lcg64_shift_jump, (key hr hpb le_rfl).1]

example : (1000 : Nat) * 1000000 < 2 ^ 64 := by norm_num

/-- Wanted for `p * b < 2^64`; `jump` is wrong for steps above `2^61` (`C65_count_shift_block_splitting_wrong`). -/
theorem C65_count_shift_block_splitting_partial (e : LCG64Count) (he : e.Valid) (p b : Nat)
    (hpb : p * b < 2 ^ 61) :
    ∃ E : Nat → LCG64Count, (∀ rank, rank < p → e.jump (BitVec.ofNat 64 (rank * b)) = some (E rank)) ∧
      (List.range p).flatMap (fun rank => firstOutputs LCG64Count.call b (E rank)) =
        firstOutputs LCG64Count.call (p * b) e := by
  refine ⟨fun rank => afterCalls LCG64Count.call (rank * b) e, fun rank hr => ?_,
    firstOutputs_blocks _ p b e _ (fun _ _ => rfl)⟩
  have h := key hr hpb (by norm_num)
  rw [C09_count_shift_jump_partial e he _ (by rw [h.1]; exact h.2), h.1]

example : LCG64Count.Valid (LCG64Count.ofParam LCG64Count.Default) := by decide

/-- With blocks of `2^62` values on a default-constructed engine, every value of the second block is wrong. -/
theorem C65_count_shift_block_splitting_wrong :
    ∃ e', (LCG64Count.ofParam LCG64Count.Default).jump (BitVec.ofNat 64 (1 * 2 ^ 62)) = some e' ∧
      ∀ k, nth LCG64Count.call e' k ≠
        nth LCG64Count.call (LCG64Count.ofParam LCG64Count.Default) (1 * 2 ^ 62 + k) := by
  obtain ⟨e', h1, h2⟩ := C09_count_shift_discard_wrong
  refine ⟨e', h1, fun k => ?_⟩
  rw [one_mul, Nat.add_comm]
  exact h2 k

theorem C65_count128_block_splitting (e : Count128) (p b : Nat) (hpb : p * b < 2 ^ 64) :
    (List.range p).flatMap (fun rank => firstOutputs Count128.call b (e.jump (BitVec.ofNat 64 (rank * b)))) =
      firstOutputs Count128.call (p * b) e :=
  firstOutputs_blocks _ p b e _ fun rank hr => by
    rw [(C13_count128_discard e _).2, (key hr hpb le_rfl).1]

/-- Wanted for `p * b < 2^64`; `discard` is wrong from 2147483645 on (`C65_minstd_block_splitting_wrong`). -/
theorem C65_minstd_block_splitting_partial (e : Minstd) (p b : Nat) (hpb : p * b < 2 ^ 31 - 3) :
    (List.range p).flatMap (fun rank => firstOutputs Minstd.call b (e.discard (BitVec.ofNat 64 (rank * b)))) =
      firstOutputs Minstd.call (p * b) e :=
  firstOutputs_blocks _ p b e _ fun rank hr => by
    have h := key hr hpb (by norm_num)
    rw [C17_minstd_discard_partial e _ (by rw [h.1]; exact h.2), h.1]

private theorem minstd_next {e : Minstd} {N T : Nat} (hN : 1 < T) (hT : T = 1 + N) (h : ExactPeriod Minstd.call e T) :
    nth Minstd.call e 0 ≠ nth Minstd.call e (1 * N + 0) := by
  rw [one_mul, Nat.add_zero]
  intro hz
  have e2 := h.2.1
  rw [hT, afterCalls_add] at e2
  have hs : (Minstd.call e).2 = (Minstd.call (afterCalls Minstd.call N e)).2 := congrArg Minstd.mk hz
  exact h.2.2 1 one_pos hN (hs.trans e2)

/-- With blocks of 2147483645 values the second rank takes the same block as the first one, and already its
first value differs from what it should be. -/
theorem C65_minstd_block_splitting_wrong (e : Minstd) (h : e.Valid) :
    e.discard (BitVec.ofNat 64 (1 * 2147483645)) = e.discard (BitVec.ofNat 64 (0 * 2147483645)) ∧
    nth Minstd.call (e.discard (BitVec.ofNat 64 (1 * 2147483645))) 0 ≠ nth Minstd.call e (1 * 2147483645 + 0) := by
  have h1 : e.discard (BitVec.ofNat 64 (1 * 2147483645)) = e := (C17_minstd_discard_wrong e h).1
  have h0 : e.discard (BitVec.ofNat 64 (0 * 2147483645)) = e := by rw [Minstd.discard_eq]; rfl
  rw [h0, h1]
  exact ⟨rfl, minstd_next (T := 2 ^ 31 - 2) (by norm_num) (by norm_num) (C18_minstd_period e h)⟩

example : (⟨1⟩ : Minstd).Valid := by decide

theorem C65_mt_block_splitting {w : Nat} {P : MT.Params w} (e : MT P) (p b : Nat) (hpb : p * b < 2 ^ 64) :
    (List.range p).flatMap (fun rank => firstOutputs MT.call b (e.discard (BitVec.ofNat 64 (rank * b)))) =
      firstOutputs MT.call (p * b) e :=
  firstOutputs_blocks _ p b e _ fun rank hr => by
    rw [C37_mt_discard, (key hr hpb le_rfl).1]

/-! ### leapfrog: the same values in another order, for every number of processes -/

private theorem streams {σ α : Type} {call : σ → α × σ} {e : σ} {p : Nat} {f : BitVec 32 → BitVec 32 → Outcome σ}
    (hp : p < 2 ^ 32)
    (h : ∀ s n : BitVec 32, n < s → ∃ e', f s n = .ok e' ∧ Leapfrog call e e' s.toNat n.toNat) (b : Nat) :
    ∃ L : Nat → σ, (∀ rank, rank < p → f (BitVec.ofNat 32 p) (BitVec.ofNat 32 rank) = .ok (L rank)) ∧
      ((List.range p).flatMap fun rank => firstOutputs call b (L rank)).Perm (firstOutputs call (p * b) e) := by
  have hex : ∀ rank, ∃ e', rank < p →
      f (BitVec.ofNat 32 p) (BitVec.ofNat 32 rank) = .ok e' ∧ Leapfrog call e e' p rank := by
    intro rank
    by_cases hr : rank < p
    · obtain ⟨h1, h2, h3⟩ := rank_lt hr hp
      obtain ⟨e', h4, h5⟩ := h _ _ h1
      rw [h2, h3] at h5
      exact ⟨e', fun _ => ⟨h4, h5⟩⟩
    · exact ⟨e, fun hc => absurd hc hr⟩
  choose L hL using hex
  exact ⟨L, fun rank hr => (hL rank hr).1, firstOutputs_leapfrog call p b e L fun rank hr => (hL rank hr).2⟩

theorem C65_lcg64_leapfrog (e : LCG64) (ha : e.P.a.toNat % 2 = 1) (p b : Nat) (hp : p < 2 ^ 32) :
    ∃ L : Nat → LCG64,
      (∀ rank, rank < p → e.split (BitVec.ofNat 32 p) (BitVec.ofNat 32 rank) = .ok (L rank)) ∧
      ((List.range p).flatMap fun rank => firstOutputs LCG64.call b (L rank)).Perm
        (firstOutputs LCG64.call (p * b) e) :=
  streams hp (fun s n => C03_lcg64_split_leapfrog e ha s n) b

theorem C65_lcg64_shift_leapfrog (e : LCG64) (ha : e.P.a.toNat % 2 = 1) (p b : Nat) (hp : p < 2 ^ 32) :
    ∃ L : Nat → LCG64,
      (∀ rank, rank < p → e.split (BitVec.ofNat 32 p) (BitVec.ofNat 32 rank) = .ok (L rank)) ∧
      ((List.range p).flatMap fun rank => firstOutputs LCG64.callShift b (L rank)).Perm
        (firstOutputs LCG64.callShift (p * b) e) :=
  streams hp (fun s n => C03_lcg64_shift_split_leapfrog e ha s n) b

theorem C65_count_shift_leapfrog (e : LCG64Count) (he : e.Valid) (ha : e.P.a.toNat % 2 = 1) (p b : Nat)
    (hp : p < 2 ^ 32) :
    ∃ L : Nat → LCG64Count,
      (∀ rank, rank < p → e.split (BitVec.ofNat 32 p) (BitVec.ofNat 32 rank) = .ok (L rank)) ∧
      ((List.range p).flatMap fun rank => firstOutputs LCG64Count.call b (L rank)).Perm
        (firstOutputs LCG64Count.call (p * b) e) :=
  streams hp (fun s n h => by
    obtain ⟨e', h1, h2, -⟩ := C11_count_shift_split_leapfrog e he ha s n h
    exact ⟨e', h1, h2⟩) b

theorem C65_count128_leapfrog (e : Count128) (p b : Nat) (hp : p < 2 ^ 32) :
    ∃ L : Nat → Count128,
      (∀ rank, rank < p → e.split (BitVec.ofNat 32 p) (BitVec.ofNat 32 rank) = .ok (L rank)) ∧
      ((List.range p).flatMap fun rank => firstOutputs Count128.call b (L rank)).Perm
        (firstOutputs Count128.call (p * b) e) :=
  streams hp (fun s n => C13_count128_split_leapfrog e s n) b

theorem C65_mrg_leapfrog (K : Kind) (e : MRG K.order) (h : Splittable K e) (p b : Nat)
    (hp : p < 2 ^ 32) :
    ∃ L : Nat → MRG K.order,
      (∀ rank, rank < p → MRG.split K.modulus e (BitVec.ofNat 32 p) (BitVec.ofNat 32 rank) = .ok (L rank)) ∧
      ((List.range p).flatMap fun rank => firstOutputs (MRG.call K.modulus) b (L rank)).Perm
        (firstOutputs (MRG.call K.modulus) (p * b) e) :=
  streams hp (fun s n hn => by
    obtain ⟨e', h1, -, h2, -⟩ := C28_mrg_split_leapfrog K e h s n hn
    exact ⟨e', h1, h2⟩) b

theorem C65_yarn_leapfrog (K : Kind) (e : MRG K.order) (h : Splittable K e) (p b : Nat)
    (hp : p < 2 ^ 32) :
    ∃ L : Nat → MRG K.order,
      (∀ rank, rank < p → MRG.split K.modulus e (BitVec.ofNat 32 p) (BitVec.ofNat 32 rank) = .ok (L rank)) ∧
      ((List.range p).flatMap fun rank => firstOutputs (MRG.callYarn K.modulus K.gen) b (L rank)).Perm
        (firstOutputs (MRG.callYarn K.modulus K.gen) (p * b) e) :=
  streams hp (fun s n hn => by
    obtain ⟨e', h1, -, -, h2⟩ := C28_mrg_split_leapfrog K e h s n hn
    exact ⟨e', h1, h2⟩) b

example : (LCG64.ofParam LCG64.Default).P.a.toNat % 2 = 1 ∧ (6 : Nat) < 2 ^ 32 := by decide

end Trng
