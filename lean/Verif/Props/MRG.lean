import Verif.Proofs.MRGUse
/- C26–C32, C67 and the mrg/yarn parts of C05, C06, C07, C65: the engines mrg2, mrg3, mrg3s, mrg4, mrg5, mrg5s and
yarn2, yarn3, yarn3s, yarn4, yarn5, yarn5s.  `K : Kind` names a pair (mrgX, yarnX); `MRG.call K.modulus` is
`mrgX::operator()` and `MRG.callYarn K.modulus K.gen` is `yarnX::operator()`. -/
namespace Trng
open Spec MRG IntMath

/-! ### C26: recurrence -/

/-- The values form a sequence with `x_i = (a_1 x_{i-1} + ... + a_n x_{i-n}) mod m`, with exact integer
arithmetic on the right. -/
theorem C26_mrg_recurrence (K : Kind) (e : MRG K.order) (h : InRange K.modulus e) (k : Nat) :
    valueSeq K.modulus e (K.order + k) =
      (∑ j : Fin K.order, e.a j * valueSeq K.modulus e (K.order + k - 1 - j.val)) % K.modulus := by
  have hm := isEngineModulus K
  have hn := order_le K
  have hv := valid_iff.1 h
  have hseq : ∀ t (i : Fin K.order), valueSeq K.modulus e (K.order - 1 + t - i.val) =
      ((step K.modulus)^[t] e).r i := by
    intro t i
    have hi := i.isLt
    unfold valueSeq
    split
    · rename_i hlt
      have hsh := shift_r (m := K.modulus) e t (i.val - t) (by omega)
      have e1 : (⟨i.val - t + t, by omega⟩ : Fin K.order) = i := Fin.ext (by show i.val - t + t = i.val; omega)
      rw [e1] at hsh
      rw [hsh]
      congr 1
      exact Fin.ext (by show K.order - 1 - (K.order - 1 + t - i.val) = i.val - t; omega)
    · rename_i hlt
      rw [nth_call]
      have hsh := shift_r (m := K.modulus) ((step K.modulus)^[K.order - 1 + t - i.val - K.order + 1] e) i.val 0
        (by omega)
      rw [← Function.iterate_add_apply, show i.val + (K.order - 1 + t - i.val - K.order + 1) = t by omega] at hsh
      have e1 : (⟨0 + i.val, by omega⟩ : Fin K.order) = i := Fin.ext (by simp)
      rw [e1] at hsh
      rw [hsh]
      rfl
  have h1 : valueSeq K.modulus e (K.order + k) = ((step K.modulus)^[k + 1] e).r 0 := by
    rw [← hseq]
    congr 1
    show _ = K.order - 1 + (k + 1) - 0
    have := NeZero.pos K.order
    omega
  rw [h1, Function.iterate_succ_apply', step_r hm hn (iterate_valid hm hn hv k),
    if_pos (show (0 : Fin K.order).val = 0 from rfl)]
  congr 1
  refine Finset.sum_congr rfl fun j _ => ?_
  rw [iterate_a, ← hseq]
  congr 2
  have := NeZero.pos K.order
  omega

/-- All values lie in `[0, m)`, and the engine stays in range with unchanged parameters. -/
theorem C26_mrg_range (K : Kind) (e : MRG K.order) (h : InRange K.modulus e) (k : Nat) :
    0 ≤ nth (call K.modulus) e k ∧ nth (call K.modulus) e k < K.modulus ∧
    InRange K.modulus (afterCalls (call K.modulus) k e) ∧ (afterCalls (call K.modulus) k e).a = e.a := by
  have hv := iterate_valid (isEngineModulus K) (order_le K) (valid_iff.1 h)
  rw [nth_call, afterCalls_call, iterate_a]
  exact ⟨((hv (k + 1)).r 0).1, ((hv (k + 1)).r 0).2, valid_iff.2 (hv k), rfl⟩

theorem MRG.init_inRange (K : Kind) : InRange K.modulus (init K) := by
  cases K <;> (intro i; revert i; decide)

example : InRange (Kind.modulus .k5) (init .k5) ∧
    firstOutputs (call (Kind.modulus .k5)) 6 (init .k5) =
      [104480, 67912, 1288570899, 1589214130, 517516878, 1930256540] := by
  refine ⟨init_inRange _, ?_⟩
  decide +kernel

/-! ### C27: discard, jump2 -/

theorem C27_mrg_discard (K : Kind) (e : MRG K.order) (h : InRange K.modulus e) (s : BitVec 64) :
    e.discard K.modulus s = afterCalls (call K.modulus) s.toNat e ∧
    e.discard K.modulus s = afterCalls (callYarn K.modulus K.gen) s.toNat e ∧
    e.jump K.modulus s = e.discard K.modulus s := by
  rw [afterCalls_call, afterCalls_callYarn]
  exact ⟨jump_eq (isEngineModulus K) (order_le K) (valid_iff.1 h) s,
    jump_eq (isEngineModulus K) (order_le K) (valid_iff.1 h) s, rfl⟩

theorem C27_mrg_jump2 (K : Kind) (e : MRG K.order) (h : InRange K.modulus e) (s : BitVec 32) :
    e.jump2 K.modulus s = afterCalls (call K.modulus) (2 ^ s.toNat) e ∧
    e.jump2 K.modulus s = afterCalls (callYarn K.modulus K.gen) (2 ^ s.toNat) e := by
  rw [afterCalls_call, afterCalls_callYarn]
  exact ⟨jump2_eq (isEngineModulus K) (order_le K) (valid_iff.1 h) s,
    jump2_eq (isEngineModulus K) (order_le K) (valid_iff.1 h) s⟩

example : ((init .k3).jump (Kind.modulus .k3) 1000000007).r 0 = 422014823 := by decide +kernel

/-! ### C28: split -/

/-- `split(s, k)` yields the leapfrog subsequence: for all parameters of the engines with two to four terms and
for the built-in parameters of the five-term engines, in every state. -/
theorem C28_mrg_split_leapfrog (K : Kind) (e : MRG K.order) (h : Splittable K e) (s k : BitVec 32) (hk : k < s) :
    ∃ e', split K.modulus e s k = .ok e' ∧ InRange K.modulus e' ∧
      Leapfrog (call K.modulus) e e' s.toNat k.toNat ∧
      Leapfrog (callYarn K.modulus K.gen) e e' s.toNat k.toNat := by
  have hv := valid_iff.1 h.1
  have hk' := hk
  rw [BitVec.lt_def] at hk'
  obtain ⟨e', h1, h2, h3⟩ := split_leapfrog (isEngineModulus K) (order_le K) hv s k hk
    (splittable_noShort h (by omega) (by have := s.isLt; omega))
  obtain ⟨h4, h5⟩ := leapfrog_of_out (isEngineModulus K) (order_le K) hv h2 h3
  exact ⟨e', h1, valid_iff.2 h2, h4, h5 _⟩

theorem MRG.init_splittable (K : Kind) : Splittable K (init K) := by
  refine ⟨init_inRange K, fun _ => ⟨K.paramLists.headD [], by cases K <;> decide, ?_⟩⟩
  cases K <;> (intro i; revert i; decide)

example : Splittable .k3 ⟨![0, 2, 0], ![5, 6, 7]⟩ := by
  refine ⟨?_, fun h => absurd h (by decide)⟩
  intro i; revert i; decide

/-- The property fails for five-term engines with other parameters, even though the recurrence
`x_i = 2 x_{i-5}` has a non-zero last coefficient: after `split(5, 0)` the first output is 4 instead of 2. -/
theorem C28_mrg5_split_wrong : ∃ e : MRG 5, InRange (Kind.modulus .k5) e ∧ LastNonZero e ∧
    nth (call (Kind.modulus .k5)) e 0 = 2 ∧
    ∃ e', split (Kind.modulus .k5) e 5 0 = .ok e' ∧ nth (call (Kind.modulus .k5)) e' 0 = 4 := by
  refine ⟨⟨![0, 0, 0, 0, 2], ![0, 0, 0, 0, 1]⟩, ?_, ?_, ?_, ?_⟩
  · intro i; revert i; decide
  · intro i; revert i; decide
  · decide +kernel
  · have key : (match split (Kind.modulus .k5) (⟨![0, 0, 0, 0, 2], ![0, 0, 0, 0, 1]⟩ : MRG 5) 5 0 with
      | .ok e' => decide (nth (call (Kind.modulus .k5)) e' 0 = 4) | _ => false) = true := by decide +kernel
    split at key
    · rename_i e' heq
      exact ⟨e', heq, of_decide_eq_true key⟩
    · cases key

/-! ### C05, C06, C07 (mrg and yarn part) -/

theorem C05_mrg_partition (K : Kind) (e : MRG K.order) (h : Splittable K e) (s : BitVec 32) (hs : 0 < s) :
    ∃ E : Nat → MRG K.order, (∀ j, j < s.toNat → split K.modulus e s (BitVec.ofNat 32 j) = .ok (E j)) ∧
      PartitionedBy (call K.modulus) e s.toNat E ∧ PartitionedBy (callYarn K.modulus K.gen) e s.toNat E := by
  have hs' : 0 < s.toNat := by rw [BitVec.lt_def] at hs; simpa using hs
  have hj : ∀ j, j < s.toNat → (BitVec.ofNat 32 j).toNat = j := fun j hj => by
    rw [BitVec.toNat_ofNat]; exact Nat.mod_eq_of_lt (by have := s.isLt; omega)
  have hex : ∀ j, ∃ e', j < s.toNat → split K.modulus e s (BitVec.ofNat 32 j) = .ok e' ∧
      Leapfrog (call K.modulus) e e' s.toNat j ∧ Leapfrog (callYarn K.modulus K.gen) e e' s.toNat j := by
    intro j
    by_cases hlt : j < s.toNat
    · obtain ⟨e1, h1, -, h2, h3⟩ := C28_mrg_split_leapfrog K e h s (BitVec.ofNat 32 j)
        (by rw [BitVec.lt_def, hj j hlt]; exact hlt)
      rw [hj j hlt] at h2 h3
      exact ⟨e1, fun _ => ⟨h1, h2, h3⟩⟩
    · exact ⟨e, fun h' => absurd h' hlt⟩
  choose E hE using hex
  exact ⟨E, fun j h => (hE j h).1, partitionedBy_of_leapfrog _ _ _ _ hs' fun j h => (hE j h).2.1,
    partitionedBy_of_leapfrog _ _ _ _ hs' fun j h => (hE j h).2.2⟩

/-- `split` throws if and only if its arguments are invalid; the linear system solved inside `split` is always
solvable, for all parameters of all engines. -/
theorem C06_mrg_split_throws_iff (K : Kind) (e : MRG K.order) (h : InRange K.modulus e) (s k : BitVec 32) :
    ((∃ e', split K.modulus e s k = .throws e') ↔ (s.toNat < 1 ∨ s.toNat ≤ k.toNat)) ∧
    split K.modulus e s k ≠ .ub := by
  by_cases hc : s.toNat < 1 ∨ s.toNat ≤ k.toNat
  · have h1 : split K.modulus e s k = .throws e := by
      unfold split
      rw [if_pos]
      rw [ge_iff_le, BitVec.le_def, BitVec.lt_def]; simpa using hc
    rw [h1]
    exact ⟨⟨fun _ => hc, fun _ => ⟨e, rfl⟩⟩, by simp⟩
  · obtain ⟨e', h1, -⟩ := split_ok (isEngineModulus K) (order_le K) (valid_iff.1 h) s k (by omega)
    rw [h1]
    exact ⟨⟨fun h2 => (by obtain ⟨_, h2⟩ := h2; cases h2), fun h2 => absurd h2 hc⟩, by simp⟩

theorem C06_mrg_split_throws_unchanged (K : Kind) (e : MRG K.order) (s k : BitVec 32)
    (h : s.toNat < 1 ∨ s.toNat ≤ k.toNat) : split K.modulus e s k = .throws e := by
  unfold split
  rw [if_pos]
  rw [ge_iff_le, BitVec.le_def, BitVec.lt_def]; simpa using h

theorem C06_mrg_split_one (K : Kind) (e : MRG K.order) : split K.modulus e 1 0 = .ok e := by
  unfold split
  rw [if_neg (by decide), if_neg (by decide)]

/-- Two splits in succession. -/
theorem C07_mrg_split_split (K : Kind) (e : MRG K.order) (h : Splittable K e) (s k t l : BitVec 32)
    (hk : k < s) (hl : l < t) :
    ∃ e1 e2, split K.modulus e s k = .ok e1 ∧ split K.modulus e1 t l = .ok e2 ∧
      Leapfrog (call K.modulus) e e2 (s.toNat * t.toNat) (l.toNat * s.toNat + k.toNat) ∧
      Leapfrog (callYarn K.modulus K.gen) e e2 (s.toNat * t.toNat) (l.toNat * s.toNat + k.toNat) := by
  have hv := valid_iff.1 h.1
  have hk' := hk
  have hl' := hl
  rw [BitVec.lt_def] at hk' hl'
  have hm := isEngineModulus K
  have hn := order_le K
  have s1 := s.isLt
  have t1 := t.isLt
  obtain ⟨e1, h1, h2, h3⟩ := split_leapfrog hm hn hv s k hk (splittable_noShort h (by omega) (by omega))
  have hst : s.toNat * t.toNat < 2 ^ 32 * 2 ^ 32 := Nat.mul_lt_mul'' s1 t1
  obtain ⟨e2, h4, h5, h6⟩ := split_leapfrog hm hn h2 t l hl fun h5 =>
    noShort_step h3 (splittable_noShort h (Nat.mul_pos (by omega) (by omega)) (by omega) h5)
  obtain ⟨a1, b1⟩ := leapfrog_of_out hm hn hv h2 h3
  obtain ⟨a2, b2⟩ := leapfrog_of_out hm hn h2 h5 h6
  refine ⟨e1, e2, h1, h4, fun j => ?_, fun j => ?_⟩
  · rw [a2, a1]; congr 1; ring
  · rw [b2, b1]; congr 1; ring

/-- Block splitting. -/
theorem C65_mrg_block_splitting (K : Kind) (e : MRG K.order) (h : InRange K.modulus e) (p b : Nat)
    (hb : p * b < 2 ^ 64) :
    ((List.range p).map fun rank => firstOutputs (call K.modulus) b
      (e.jump K.modulus (BitVec.ofNat 64 (rank * b)))).flatten = firstOutputs (call K.modulus) (p * b) e ∧
    ((List.range p).map fun rank => firstOutputs (callYarn K.modulus K.gen) b
      (e.jump K.modulus (BitVec.ofNat 64 (rank * b)))).flatten =
        firstOutputs (callYarn K.modulus K.gen) (p * b) e := by
  have key : ∀ rank, rank < p → (BitVec.ofNat 64 (rank * b)).toNat = rank * b := by
    intro rank hr
    rw [BitVec.toNat_ofNat]
    exact Nat.mod_eq_of_lt (lt_of_le_of_lt (Nat.mul_le_mul_right b hr.le) hb)
  constructor
  · refine firstOutputs_blocks _ _ _ _ _ fun rank hr => ?_
    rw [(C27_mrg_discard K e h _).2.2, (C27_mrg_discard K e h _).1, key rank hr]
  · refine firstOutputs_blocks _ _ _ _ _ fun rank hr => ?_
    rw [(C27_mrg_discard K e h _).2.2, (C27_mrg_discard K e h _).2.1, key rank hr]

/-! ### C29: backward -/

/-- With a non-zero last coefficient `backward` and a call undo each other. -/
theorem C29_mrg_backward (K : Kind) (e : MRG K.order) (h : InRange K.modulus e) (hl : LastNonZero e) :
    (call K.modulus e).2.backward K.modulus = .ok e ∧
    ∃ e', e.backward K.modulus = .ok e' ∧ (call K.modulus e').2 = e := by
  have hm := isEngineModulus K
  have hn := order_le K
  have hv := valid_iff.1 h
  have hlc : LastCoeff e.a K.order :=
    ⟨le_refl _, fun c hc => hl c hc, fun c hc => absurd c.isLt (by omega)⟩
  refine ⟨backward_iterate hm hn hv hlc (fun h5 => Or.inr h5) 0 (by omega), ?_⟩
  obtain ⟨N, hN, hc⟩ := recurrent_of_lastNonZero hm hn hv hl
  have := backward_iterate hm hn hv hlc (fun h5 => Or.inr h5) (N - 1) (by omega)
  rw [show N - 1 + 1 = N by omega, hc] at this
  refine ⟨_, this, ?_⟩
  show step K.modulus ((step K.modulus)^[N - 1] e) = e
  rw [← Function.iterate_succ_apply' (step K.modulus), show (N - 1).succ = N by omega, hc]

/-- The fallbacks for vanishing coefficients are correct in the engines with up to four terms, as soon as the
whole state consists of values that were computed by the recurrence, in particular after `n` calls. -/
theorem C29_mrg_backward_fallback (K : Kind) (hK : K.order ≤ 4) (e : MRG K.order) (h : InRange K.modulus e)
    (j : Nat) (hj : K.order ≤ j) :
    (afterCalls (call K.modulus) (j + 1) e).backward K.modulus = .ok (afterCalls (call K.modulus) j e) := by
  obtain ⟨k, hk⟩ := exists_lastCoeff e.a
  rw [afterCalls_call, afterCalls_call]
  exact backward_iterate (isEngineModulus K) (order_le K) (valid_iff.1 h) hk (fun h5 => absurd h5 (by omega)) j
    (by omega)

/-- The fallbacks of the five-term engines are wrong: with `x_i = 2 x_{i-4}` ten calls followed by one step
back and one call do not restore the state. -/
theorem C29_mrg5_backward_wrong : ∃ e : MRG 5, InRange (Kind.modulus .k5) e ∧
    ∃ e', (afterCalls (call (Kind.modulus .k5)) 10 e).backward (Kind.modulus .k5) = .ok e' ∧
      e'.r 4 ≠ (afterCalls (call (Kind.modulus .k5)) 9 e).r 4 := by
  refine ⟨⟨![0, 0, 0, 2, 0], ![1, 2, 3, 4, 5]⟩, ?_, ?_⟩
  · intro i; revert i; decide
  · have key : (match (afterCalls (call (Kind.modulus .k5)) 10
        (⟨![0, 0, 0, 2, 0], ![1, 2, 3, 4, 5]⟩ : MRG 5)).backward (Kind.modulus .k5) with
      | .ok e' => decide (e'.r 4 ≠ (afterCalls (call (Kind.modulus .k5)) 9
        (⟨![0, 0, 0, 2, 0], ![1, 2, 3, 4, 5]⟩ : MRG 5)).r 4) | _ => false) = true := by decide +kernel
    split at key
    · rename_i e' heq
      exact ⟨e', heq, of_decide_eq_true key⟩
    · cases key

/-- The step back never fails. -/
theorem C29_mrg_backward_total (K : Kind) (e : MRG K.order) (h : InRange K.modulus e) :
    ∃ e', e.backward K.modulus = .ok e' ∧ InRange K.modulus e' := by
  obtain ⟨m1, m2⟩ := engineModulus_bounds (isEngineModulus K)
  obtain ⟨e', h1, h2⟩ := backward_ok (m := K.modulus) (by omega) (valid_iff.1 h)
  exact ⟨e', h1, valid_iff.2 h2⟩

example : LastNonZero (init .k4) ∧ InRange (Kind.modulus .k4) ⟨![7, 2, 0, 0], ![1, 2, 3, 4]⟩ := by
  constructor <;> (intro i; revert i; decide)

/-! ### C30: output function of the yarn engines -/

/-- The yarn engine returns 0 if the mrg engine in the same state returns 0, and `g^x mod m` if it returns
`x ≠ 0`; it goes through the same states. -/
theorem C30_yarn_output (K : Kind) (e : MRG K.order) (h : InRange K.modulus e) (k : Nat) :
    nth (callYarn K.modulus K.gen) e k =
      some (if nth (call K.modulus) e k = 0 then 0
            else (documentedBase K : Int) ^ (nth (call K.modulus) e k).toNat % documentedModulus K) ∧
    afterCalls (callYarn K.modulus K.gen) k e = afterCalls (call K.modulus) k e := by
  have hg : documentedBase K = K.gen := by cases K <;> rfl
  have hm : documentedModulus K = K.modulus := by cases K <;> rfl
  rw [hg, hm]
  have hr := C26_mrg_range K e h k
  rw [afterCalls_call, afterCalls_callYarn]
  refine ⟨?_, rfl⟩
  rw [nth_call] at hr ⊢
  rw [nth_callYarn, yarnOut_eq K hr.1 hr.2.1]
  push_cast
  rfl

/-- The output lies in `[0, m)`. -/
theorem C30_yarn_range (K : Kind) (e : MRG K.order) (h : InRange K.modulus e) (k : Nat) :
    ∃ y, nth (callYarn K.modulus K.gen) e k = some y ∧ 0 ≤ y ∧ y < K.modulus := by
  obtain ⟨m1, -⟩ := engineModulus_bounds (isEngineModulus K)
  refine ⟨_, (C30_yarn_output K e h k).1, ?_, ?_⟩
  · split
    · exact le_refl _
    · exact Int.emod_nonneg _ (by cases K <;> decide)
  · split
    · omega
    · have hm : documentedModulus K = K.modulus := by cases K <;> rfl
      rw [hm]
      exact Int.emod_lt_of_pos _ (by omega)

/-- The output function is a permutation of `[0, m)`: for every `y` there is exactly one `x` with output `y`. -/
theorem C30_yarn_permutation (K : Kind) (y : Int) (h0 : 0 ≤ y) (h1 : y < K.modulus) :
    ∃! x : Int, (0 ≤ x ∧ x < K.modulus) ∧ (if x = 0 then 0 else (K.gen : Int) ^ x.toNat % K.modulus) = y := by
  have hnat : ∀ x : Int, (if x = 0 then 0 else (K.gen : Int) ^ x.toNat % K.modulus) =
      (if x = 0 then 0 else ((K.gen ^ x.toNat % K.modulus : Nat) : Int)) := by
    intro x; push_cast; rfl
  have hinj : ∀ x x' : Int, 0 ≤ x → x < K.modulus → 0 ≤ x' → x' < K.modulus →
      (if x = 0 then 0 else (K.gen : Int) ^ x.toNat % K.modulus) =
      (if x' = 0 then 0 else (K.gen : Int) ^ x'.toNat % K.modulus) → x = x' := by
    intro x x' a b c d heq
    rw [hnat, hnat] at heq
    exact yarnOut_inj K a b c d (by rw [yarnOut_eq K a b, yarnOut_eq K c d, heq])
  have hpos : 0 < K.modulus := by cases K <;> decide
  let f : Fin K.modulus → Fin K.modulus := fun x =>
    ⟨if x.val = 0 then 0 else K.gen ^ x.val % K.modulus, by split; exact hpos; exact Nat.mod_lt _ hpos⟩
  have hf : Function.Injective f := by
    intro x x' hxx
    have h2 := congrArg Fin.val hxx
    simp only [f] at h2
    have h3 := hinj x.val x'.val (by omega) (by have := x.isLt; omega) (by omega) (by have := x'.isLt; omega) (by
      rw [hnat, hnat]
      simp only [Int.toNat_natCast, Nat.cast_eq_zero]
      exact_mod_cast h2)
    exact Fin.ext (by exact_mod_cast h3)
  obtain ⟨x, hx⟩ := (Finite.injective_iff_surjective.1 hf) ⟨y.toNat, by omega⟩
  have hx' := congrArg Fin.val hx
  simp only [f] at hx'
  have hxy : (if (x.val : Int) = 0 then 0 else (K.gen : Int) ^ (x.val : Int).toNat % K.modulus) = y := by
    rw [hnat]
    simp only [Int.toNat_natCast, Nat.cast_eq_zero]
    have : ((if x.val = 0 then 0 else K.gen ^ x.val % K.modulus : Nat) : Int) = y := by rw [hx']; omega
    rw [← this]; push_cast; rfl
  have xl := x.isLt
  refine ⟨x.val, ⟨⟨by omega, by omega⟩, hxy⟩, fun x' ⟨⟨a, b⟩, c⟩ => ?_⟩
  exact hinj _ _ a b (by omega) (by omega) (c.trans hxy.symm)

example : firstOutputs (callYarn (Kind.modulus .k3) (Kind.gen .k3)) 3 (init .k3) =
    [some 492820743, some 1148325964, some 1310547142] := by decide +kernel

/-! ### C31: seeding -/

theorem MRG.reduceSigned_range {m : Nat} (hm : 0 < m) (x : Int) : 0 ≤ reduceSigned m x ∧ reduceSigned m x < m := by
  unfold reduceSigned
  have h1 := Int.tmod_lt_of_pos x (show (0 : Int) < m by omega)
  have h2 := Int.lt_tmod_of_pos x (show (0 : Int) < m by omega)
  split <;> omega

/-- All overloads of `seed` keep the parameters and give a state in range; those that set the state from one
number give a state that is not all zero. -/
theorem C31_mrg_seed_range (K : Kind) (e : MRG K.order) (h : InRange K.modulus e) (s : BitVec 64)
    (t : Fin K.order → BitVec 32) (g : Nat → Int) :
    InRange K.modulus (e.seed K.modulus s) ∧ NonZero (e.seed K.modulus s) ∧
    InRange K.modulus (e.seedN K.modulus t) ∧ InRange K.modulus (e.seedGen K.modulus g) ∧
    InRange K.modulus (init K) ∧ NonZero (init K) := by
  have hp : 0 < K.modulus := by cases K <;> decide
  have h2 : 2 ≤ K.modulus := by cases K <;> decide
  have hm : 1 < K.order := by cases K <;> decide
  refine ⟨fun i => ⟨(h i).1, (h i).2.1, ?_⟩, ⟨⟨1, hm⟩, by simp [seed]⟩, fun i => ⟨(h i).1, (h i).2.1, ?_⟩,
    fun i => ⟨(h i).1, (h i).2.1, ?_⟩, init_inRange K, ⟨⟨1, hm⟩, by simp [init, status0]⟩⟩
  · simp only [seed]
    split
    · exact reduceSigned_range hp _
    · omega
  · exact reduceSigned_range hp _
  · simp only [seedGen]
    have := Nat.mod_lt (BitVec.ofInt 32 (g i)).toNat hp
    omega

/-- What the state is: residues of the seeds. -/
theorem C31_mrg_seed_residue (K : Kind) (e : MRG K.order) (s : BitVec 64) (t : Fin K.order → BitVec 32)
    (i : Fin K.order) :
    (e.seed K.modulus s).r 0 = s.toInt % K.modulus ∧ (i ≠ 0 → (e.seed K.modulus s).r i = 1) ∧
    (e.seedN K.modulus t).r i = (t i).toInt % K.modulus := by
  have hp : (0 : Int) < K.modulus := by cases K <;> decide
  have key : ∀ x : Int, reduceSigned K.modulus x = x % K.modulus := by
    intro x
    unfold reduceSigned
    rw [Int.emod_eq_tmod]
    have h2 := Int.lt_tmod_of_pos x hp
    have h1 := Int.tmod_lt_of_pos x hp
    by_cases hx : 0 ≤ x
    · have := Int.tmod_nonneg (K.modulus : Int) hx
      rw [if_neg (by omega), if_pos (Or.inl hx)]; omega
    · by_cases hd : (K.modulus : Int) ∣ x
      · rw [Int.tmod_eq_zero_of_dvd hd]; simp [hd]
      · have h3 : x.tmod K.modulus < 0 := by
          rcases lt_trichotomy (x.tmod K.modulus) 0 with h | h | h
          · exact h
          · exact absurd (Int.dvd_of_tmod_eq_zero h) hd
          · have h4 := Int.tmod_nonneg (K.modulus : Int) (show 0 ≤ -x by omega)
            rw [Int.neg_tmod] at h4
            omega
        rw [if_pos h3, if_neg (by tauto)]
        omega
  refine ⟨?_, ?_, key _⟩
  · show (if (0 : Fin K.order).val = 0 then reduceSigned K.modulus s.toInt else 1) = _
    rw [if_pos (show (0 : Fin K.order).val = 0 from rfl), key]
  · intro hi
    show (if i.val = 0 then reduceSigned K.modulus s.toInt else 1) = _
    rw [if_neg (show ¬ i.val = 0 from fun hc => hi (Fin.ext hc))]

/-- The property fails for yarn5s seeded from a generator: a generator that returns `2^31` leaves a negative
state. -/
theorem C31_yarn5s_seedGen_wrong (e : MRG (Kind.order .k5s)) :
    ¬ InRange (Kind.modulus .k5s) (e.seedGenYarn5s (Kind.modulus .k5s) fun _ => 2147483648) := by
  intro h
  have := (h 0).2.2.1
  revert this
  show ¬ (0 ≤ (BitVec.ofInt 32 2147483648).toInt.tmod 2147461007)
  decide

/-! ### C32: periods -/

private theorem periods (K : Kind) (e : MRG K.order) (h : InRange K.modulus e) (hz : NonZero e) {l : List Int}
    (hl : l ∈ fullPeriod K ++ halfPeriod K) (hu : Uses e l) {T : Nat} (hT : orderOf (comp K.modulus e.a) = T)
    (hT1 : T ≤ K.modulus ^ K.order - 1) :
    ExactPeriod (call K.modulus) e T ∧ ExactOutputPeriod (call K.modulus) e T ∧
    ExactPeriod (callYarn K.modulus K.gen) e T ∧ ExactOutputPeriod (callYarn K.modulus K.gen) e T := by
  have hT2 : T < 2 ^ 156 := lt_of_le_of_lt hT1 bound_order.1
  obtain ⟨h1, h2⟩ := exactPeriods (valid_iff.1 h) hz hl hu hT hT2 (fun x => x) (fun _ _ _ _ _ _ hxy => hxy)
    (call K.modulus) (fun _ => rfl)
  obtain ⟨h3, h4⟩ := exactPeriods (valid_iff.1 h) hz hl hu hT hT2 (yarnOut K.modulus K.gen)
    (fun _ _ a b c d hxy => yarnOut_inj K a b c d hxy) (callYarn K.modulus K.gen) (fun _ => rfl)
  exact ⟨h1, h2, h3, h4⟩

/-- The built-in parameter sets listed in `fullPeriod` have the documented period `m^n - 1` from every
non-zero state, for the states and for the output, of the mrg and of the yarn engine. -/
theorem C32_mrg_period_partial (K : Kind) (l : List Int) (hl : l ∈ fullPeriod K) (e : MRG K.order) (hu : Uses e l)
    (h : InRange K.modulus e) (hz : NonZero e) :
    ExactPeriod (call K.modulus) e (K.modulus ^ K.order - 1) ∧
    ExactOutputPeriod (call K.modulus) e (K.modulus ^ K.order - 1) ∧
    ExactPeriod (callYarn K.modulus K.gen) e (K.modulus ^ K.order - 1) ∧
    ExactOutputPeriod (callYarn K.modulus K.gen) e (K.modulus ^ K.order - 1) :=
  periods K e h hz (List.mem_append_left _ hl) hu
    (by rw [uses_eq hu]; exact (fullPeriod_order K l hl).2) (le_refl _)

/-- The default parameter sets of mrg3s, yarn3s, mrg5s and yarn5s do not have the documented period, but half of
it. -/
theorem C32_mrg_period_wrong (K : Kind) (l : List Int) (hl : l ∈ halfPeriod K) (e : MRG K.order) (hu : Uses e l)
    (h : InRange K.modulus e) (hz : NonZero e) :
    ExactPeriod (call K.modulus) e ((K.modulus ^ K.order - 1) / 2) ∧
    ExactOutputPeriod (call K.modulus) e ((K.modulus ^ K.order - 1) / 2) ∧
    ExactPeriod (callYarn K.modulus K.gen) e ((K.modulus ^ K.order - 1) / 2) ∧
    ExactOutputPeriod (callYarn K.modulus K.gen) e ((K.modulus ^ K.order - 1) / 2) :=
  periods K e h hz (List.mem_append_right _ hl) hu
    (by rw [uses_eq hu]; exact (halfPeriod_order K l hl).2.1) (Nat.div_le_self _ _)

/-- The parameter set LEcuyer2 of mrg4 and yarn4: every state recurs after `m^2 - 1` calls already, instead of
the documented `m^4 - 1`. -/
theorem C32_mrg4_LEcuyer2_wrong (e : MRG (Kind.order .k4)) (hu : Uses e [64886, 0, 0, 64322])
    (h : InRange (Kind.modulus .k4) e) :
    afterCalls (call (Kind.modulus .k4)) (Kind.modulus .k4 ^ 2 - 1) e = e ∧
    afterCalls (callYarn (Kind.modulus .k4) (Kind.gen .k4)) (Kind.modulus .k4 ^ 2 - 1) e = e := by
  have hm := isEngineModulus .k4
  have hn := order_le .k4
  have hv := valid_iff.1 h
  have key : (step (Kind.modulus .k4))^[Kind.modulus .k4 ^ 2 - 1] e = e := by
    refine ext_cast (iterate_valid hm hn hv _) hv (iterate_a e _) ?_
    have h1 := pow_orderOf_eq_one (comp (Kind.modulus .k4) e.a)
    rw [uses_eq hu, lecuyer2_order] at h1
    rw [castV_iterate hm hn hv, uses_eq hu, h1, Matrix.one_mulVec]
  rw [afterCalls_call, afterCalls_callYarn]
  exact ⟨key, key⟩

/-- Every built-in parameter set is covered by one of the three theorems. -/
theorem C32_mrg_all_builtin (K : Kind) (l : List Int) (hl : l ∈ K.paramLists) :
    l ∈ fullPeriod K ∨ l ∈ halfPeriod K ∨ (K = .k4 ∧ l = [64886, 0, 0, 64322]) := by
  cases K <;>
  · simp only [Kind.paramLists, fullPeriod, halfPeriod, List.mem_cons, List.not_mem_nil, or_false] at hl ⊢
    tauto

/-- The default engines and the hypotheses of the theorems. -/
example : Uses (init .k3) [2021422057, 1826992351, 1977753457] ∧ NonZero (init .k3) ∧
    Uses (init .k5s) [1053223373, 1530818118, 1612122482, 133497989, 573245311] ∧ NonZero (init .k5s) := by
  refine ⟨?_, ⟨⟨1, by decide⟩, by decide⟩, ?_, ⟨⟨1, by decide⟩, by decide⟩⟩ <;> (intro i; revert i; decide)

/-! ### C67: equidistribution -/

/-- Over a full period every `n`-tuple of residues except the zero tuple appears exactly once as `n` consecutive
values. -/
theorem C67_mrg_tuples (K : Kind) (l : List Int) (hl : l ∈ fullPeriod K) (e : MRG K.order) (hu : Uses e l)
    (h : InRange K.modulus e) (hz : NonZero e) (v : Fin K.order → Int) (hv : ∀ i, 0 ≤ v i ∧ v i < K.modulus)
    (hv0 : ∃ i, v i ≠ 0) :
    ∃! t, t < K.modulus ^ K.order - 1 ∧ ∀ i : Fin K.order, nth (call K.modulus) e (t + i.val) = v i := by
  have hm := isEngineModulus K
  have hn := order_le K
  have hval := valid_iff.1 h
  obtain ⟨⟨hT0, hcyc, hmin⟩, -, -⟩ := C32_mrg_period_partial K l hl e hu h hz
  obtain ⟨T, hT⟩ : ∃ T, T = K.modulus ^ K.order - 1 := ⟨_, rfl⟩
  rw [← hT] at hT0 hcyc hmin ⊢
  rw [afterCalls_call] at hcyc
  simp only [afterCalls_call] at hmin
  -- the state after the tuple
  have hstate : ∀ t, (∀ i : Fin K.order, nth (call K.modulus) e (t + i.val) = v i) ↔
      ∀ i : Fin K.order, ((step K.modulus)^[t + K.order] e).r i = v i.rev := by
    intro t
    have h1 : ∀ i : Fin K.order, ((step K.modulus)^[t + K.order] e).r i = nth (call K.modulus) e (t + i.rev.val) := by
      intro i
      rw [nth_call]
      have hi := i.isLt
      have hsh := shift_r (m := K.modulus) ((step K.modulus)^[t + i.rev.val + 1] e) i.val 0 (by omega)
      rw [← Function.iterate_add_apply, show i.val + (t + i.rev.val + 1) = t + K.order by
        rw [Fin.val_rev]; omega] at hsh
      have e1 : (⟨0 + i.val, by omega⟩ : Fin K.order) = i := Fin.ext (by simp)
      rw [e1] at hsh
      exact hsh
    constructor
    · intro h2 i; rw [h1, h2]
    · intro h2 i
      have := h1 i.rev
      rw [Fin.rev_rev] at this
      rw [← this, h2, Fin.rev_rev]
  obtain ⟨t0, ht0, hs0⟩ := exists_state hval hz hl hu (fun i => ((v i.rev : Int) : ZMod K.modulus)) (by
    intro hc
    obtain ⟨i, hi⟩ := hv0
    have := congrFun hc i.rev
    simp only [Fin.rev_rev, Pi.zero_apply] at this
    exact hi (((show InR K.modulus (v i) from hv i).cast_eq_zero).1 this))
  rw [← hT] at ht0
  have hs1 : ∀ i, ((step K.modulus)^[t0] e).r i = v i.rev := fun i =>
    ((iterate_valid hm hn hval t0).r i).inj (hv i.rev) (congrFun hs0 i)
  have hmulcyc : ∀ c, (step K.modulus)^[c * T] e = e := by
    intro c
    induction c with
    | zero => simp
    | succ c ih => rw [Nat.succ_mul, Function.iterate_add_apply, hcyc, ih]
  have hmod : ∀ u, (step K.modulus)^[u % T] e = (step K.modulus)^[u] e := by
    intro u
    conv_rhs => rw [← Nat.mod_add_div u T, Nat.mul_comm, Function.iterate_add_apply, hmulcyc]
  have hT6 : K.order ≤ T * K.order := Nat.le_mul_of_pos_left _ hT0
  refine ⟨(t0 + (T * K.order - K.order)) % T, ⟨Nat.mod_lt _ hT0, (hstate _).2 fun i => ?_⟩, ?_⟩
  · rw [← hs1 i]
    congr 1
    rw [Nat.add_comm, Function.iterate_add_apply, hmod, ← Function.iterate_add_apply,
      show K.order + (t0 + (T * K.order - K.order)) = t0 + K.order * T by rw [Nat.mul_comm K.order T]; omega,
      Function.iterate_add_apply, hmulcyc]
  · rintro t ⟨ht, hvt⟩
    have h1 := (hstate t).1 hvt
    have h2 : (step K.modulus)^[t + K.order] e = (step K.modulus)^[t0] e :=
      MRG.ext (by rw [iterate_a, iterate_a]) (funext fun i => by rw [h1, hs1])
    -- injectivity of the cycle
    have h3 : (step K.modulus)^[t] e = (step K.modulus)^[(t0 + (T * K.order - K.order)) % T] e := by
      rw [hmod, Nat.add_comm t0, Function.iterate_add_apply, ← h2, ← Function.iterate_add_apply,
        show T * K.order - K.order + (t + K.order) = t + K.order * T by rw [Nat.mul_comm K.order T]; omega,
        Function.iterate_add_apply, hmulcyc]
    have hinj : ∀ a b, a < T → b < T → a ≤ b → (step K.modulus)^[a] e = (step K.modulus)^[b] e → a = b := by
      intro a b ha hb hab heq
      by_contra hne
      refine hmin (b - a) (by omega) (by omega) ?_
      have h5 := congrArg (step K.modulus)^[T - a] heq
      rw [← Function.iterate_add_apply, ← Function.iterate_add_apply, show T - a + a = T by omega, hcyc,
        show T - a + b = (b - a) + T by omega, Function.iterate_add_apply, hcyc] at h5
      exact h5.symm
    have hlt := Nat.mod_lt (t0 + (T * K.order - K.order)) hT0
    rcases Nat.le_total t ((t0 + (T * K.order - K.order)) % T) with hc | hc
    · exact hinj _ _ ht hlt hc h3
    · exact (hinj _ _ hlt ht hc h3.symm).symm

end Trng
