import Verif.Proofs.MRGWritten
import Verif.Props.MRG

/-!
C88: the functions of the twelve mrg and yarn engines, as they are written out in their sources (`Model/MRGWritten`), follow the
documented recurrence, for the host.  C89: on CUDA they give the same numbers.
-/
namespace Trng.MRGWritten
open Trng.Spec IntMath

variable (K : Kind)

theorem call_funext : call K = MRG.call K.modulus := funext (call_eq K)
theorem callYarn_funext : callYarn false K = MRG.callYarn K.modulus K.gen := funext (callYarn_eq K)

/-! ### C88 -/

/-- One call of an mrg engine returns the sum of the products of coefficients and stored values modulo the documented modulus,
stores it as the newest value and drops the oldest. -/
theorem C88_call (e : MRG K.order) (h : InRange K.modulus e) :
    (call K e).1 = (∑ j, e.a j * e.r j) % documentedModulus K ∧
    (call K e).2.a = e.a ∧ (call K e).2.r 0 = (call K e).1 ∧
    (∀ i j : Fin K.order, i.val + 1 = j.val → (call K e).2.r j = e.r i) ∧
    InRange K.modulus (call K e).2 := by
  have hm : documentedModulus K = K.modulus := by cases K <;> rfl
  have hn : 0 < K.order := by cases K <;> decide
  rw [call_eq, hm]
  refine ⟨?_, rfl, rfl, ?_, ?_⟩
  · have h1 := C26_mrg_recurrence K e h 0
    have h2 : valueSeq K.modulus e (K.order + 0) = (MRG.call K.modulus e).1 := by
      unfold valueSeq
      rw [dif_neg (by omega), show K.order + 0 - K.order = 0 by omega]
      rfl
    rw [h2] at h1
    rw [h1]
    congr 1
    refine Finset.sum_congr rfl fun j _ => ?_
    have hj := j.isLt
    unfold valueSeq
    rw [dif_pos (by omega)]
    congr 2
    exact Fin.ext (by simp only; omega)
  · intro i j hij
    show (if j.val = 0 then _ else e.r ⟨j.val - 1, _⟩) = _
    rw [if_neg (by omega)]
    congr 1
    exact Fin.ext (by simp only; omega)
  · exact (C26_mrg_range K e h 1).2.2.1

/-- `jump(s)` and `discard(s)` advance the engine by `s` calls, `jump2(s)` by `2^s` calls. -/
theorem C88_jump (e : MRG K.order) (h : InRange K.modulus e) (s : BitVec 64) (t : BitVec 32) :
    jump K e s = afterCalls (call K) s.toNat e ∧ jump2 K e t = afterCalls (call K) (2 ^ t.toNat) e ∧
    jump K e s = afterCalls (callYarn false K) s.toNat e ∧ jump2 K e t = afterCalls (callYarn false K) (2 ^ t.toNat) e := by
  rw [call_funext, callYarn_funext, jump_eq, jump2_eq]
  obtain ⟨h1, h2, h3⟩ := C27_mrg_discard K e h s
  obtain ⟨h4, h5⟩ := C27_mrg_jump2 K e h t
  exact ⟨h3.trans h1, h4, h3.trans h2, h5⟩

/-- `split(s, k)` leaves every `s`-th number, beginning with number `k`. -/
theorem C88_split (e : MRG K.order) (h : Splittable K e) (s k : BitVec 32) (hk : k < s) :
    ∃ e', split false K e s k = .ok e' ∧ InRange K.modulus e' ∧
      Leapfrog (call K) e e' s.toNat k.toNat ∧ Leapfrog (callYarn false K) e e' s.toNat k.toNat := by
  rw [call_funext, callYarn_funext, split_eq]
  exact C28_mrg_split_leapfrog K e h s k hk

/-- `split` throws for invalid arguments and only then, and leaves the engine as it is. -/
theorem C88_split_throws (e : MRG K.order) (h : InRange K.modulus e) (s k : BitVec 32) :
    (∀ e', split false K e s k = .throws e' ↔ e' = e ∧ (s.toNat < 1 ∨ s.toNat ≤ k.toNat)) ∧ split false K e s k ≠ .ub := by
  rw [split_eq]
  obtain ⟨h1, h2⟩ := C06_mrg_split_throws_iff K e h s k
  refine ⟨fun e' => ⟨fun h3 => ?_, fun ⟨h3, h4⟩ => ?_⟩, h2⟩
  · have h4 := h1.1 ⟨e', h3⟩
    refine ⟨?_, h4⟩
    have h5 : MRG.split K.modulus e s k = .throws e := by
      unfold MRG.split
      rw [if_pos]
      rw [ge_iff_le, BitVec.le_def, BitVec.lt_def]; simpa using h4
    rw [h5] at h3
    cases h3; rfl
  · subst h3
    unfold MRG.split
    rw [if_pos]
    rw [ge_iff_le, BitVec.le_def, BitVec.lt_def]; simpa using h4

/-- The yarn engines return 0 or the documented power, and go through the states of the mrg engines. -/
theorem C88_yarn (e : MRG K.order) (h : InRange K.modulus e) :
    callYarn false K e = (some (if (call K e).1 = 0 then 0 else (documentedBase K : Int) ^ (call K e).1.toNat % documentedModulus K),
      (call K e).2) := by
  obtain ⟨h1, -⟩ := C30_yarn_output K e h 0
  refine Prod.ext ?_ ?_
  · rw [callYarn_eq, call_eq]; exact h1
  · rw [callYarn_eq, call_eq]; rfl

/-- `backward` undoes a call, if the last coefficient is not zero. -/
theorem C88_backward (e : MRG K.order) (h : InRange K.modulus e) (hl : LastNonZero e) :
    backward false K (call K e).2 = .ok e := by
  rw [call_eq, backward_eq]
  exact (C29_mrg_backward K e h hl).1

/-- The seeds are reduced modulo the modulus; the remaining values are 1. -/
theorem C88_seed (e : MRG K.order) (s : BitVec 64) (t : Fin K.order → BitVec 32) (i : Fin K.order) :
    (seed K e s).a = e.a ∧ (seed K e s).r 0 = s.toInt % documentedModulus K ∧ (i ≠ 0 → (seed K e s).r i = 1) ∧
    (seedN K e t).a = e.a ∧ (seedN K e t).r i = (t i).toInt % documentedModulus K := by
  have hm : documentedModulus K = K.modulus := by cases K <;> rfl
  rw [seed_eq, seedN_eq, hm]
  obtain ⟨h1, h2, h3⟩ := C31_mrg_seed_residue K e s t i
  exact ⟨rfl, h1, h2, rfl, h3⟩

/-- Seeding by a generator, but for yarn5s: the values of successive calls, reduced. -/
theorem C88_seed_generator (e : MRG K.order) (g : Nat → Int) (i : Fin K.order) :
    (seedGen K e g).a = e.a ∧ (seedGen K e g).r i = (g i % 2 ^ 32) % documentedModulus K := by
  have hm : documentedModulus K = K.modulus := by cases K <;> rfl
  rw [seedGen_eq, hm]
  refine ⟨rfl, ?_⟩
  show (((BitVec.ofInt 32 (g i)).toNat % K.modulus : Nat) : Int) = _
  rw [BitVec.toNat_ofInt]
  push_cast
  rw [Int.toNat_of_nonneg (Int.emod_nonneg _ (by norm_num))]

example : InRange (Kind.modulus .k5s) (MRG.init .k5s) ∧ Splittable .k5s (MRG.init .k5s) ∧ LastNonZero (MRG.init .k5s) := by
  refine ⟨MRG.init_inRange _, ⟨MRG.init_inRange _, fun _ => ⟨_, List.mem_cons_self, ?_⟩⟩, ?_⟩
  · intro i; revert i; decide
  · intro i; revert i; decide

/-- The third number of mrg5s after seeding with 1, from the text of its functions. -/
example : nth (call .k5s) (seed .k5s (MRG.init .k5s) 1) 2 = 1272103337 := by decide +kernel

/-! ### C89 -/

/-- On CUDA the yarn engines return the same numbers as on the host, and go through the same states. -/
theorem C89_yarn (e : MRG K.order) (h : InRange K.modulus e) : callYarn true K e = callYarn false K e := by
  obtain ⟨h1, -, h2, -, h3⟩ := C88_call K e h
  have hr := h3 0
  have hs : (call K e).2 = step K e := rfl
  rw [hs] at hr
  have hb : K.modulus < 2 ^ 31 := by cases K <;> decide
  rw [C88_yarn K e h]
  refine Prod.ext ?_ (by unfold callYarn; simp only [if_true]; split <;> rfl)
  unfold callYarn
  simp only [if_true]
  have hc : (call K e).1 = (step K e).r 0 := rfl
  rw [hc]
  split
  · rfl
  · simp only
    obtain ⟨n, hn⟩ := Int.eq_ofNat_of_zero_le hr.2.2.1
    rw [hn] at hr ⊢
    have hn2 : n < 2 ^ 32 := by have := hr.2.2.2; norm_cast at this; omega
    have hg : documentedBase K = K.gen := by cases K <;> rfl
    have hm : documentedModulus K = K.modulus := by cases K <;> rfl
    rw [powerLoop_eq, hg, hm]
    have := powerPow_eq (MRG.isEngineModulus K) (b := K.gen) (by cases K <;> decide) hn2
    unfold powerPow at this
    rw [this]
    push_cast
    rfl

/-- On CUDA `split` with valid arguments gives the same engine as on the host. -/
theorem C89_split (e : MRG K.order) (h : Splittable K e) (s k : BitVec 32) (hk : k < s) :
    split true K e s k = split false K e s k := by
  obtain ⟨e', h1, -⟩ := C88_split K e h s k hk
  rw [h1, split_cuda h1]

/-- The same for `backward`. -/
theorem C89_backward (e : MRG K.order) (h : InRange K.modulus e) : backward true K e = backward false K e := by
  obtain ⟨e', h1, -⟩ := C29_mrg_backward_total K e h
  rw [← backward_eq] at h1
  rw [h1, backward_cuda h1]

/-- On CUDA the arguments of `split` are not checked: a stream number that is too large gives the numbers beginning with that
number, and `s = 0` leaves the engine as it is. -/
theorem C89_split_unchecked (e : MRG K.order) (h : Splittable K e) (s k : BitVec 32) :
    (1 < s → ∃ e', split true K e s k = .ok e' ∧ InRange K.modulus e' ∧ Leapfrog (call K) e e' s.toNat k.toNat ∧
      Leapfrog (callYarn true K) e e' s.toNat k.toNat) ∧
    (¬ 1 < s → split true K e s k = .ok e) := by
  refine ⟨fun hs => ?_, split_small K e s k⟩
  have hs' : (1 : Nat) < s.toNat := by rw [BitVec.lt_def] at hs; simpa using hs
  have hv := MRG.valid_iff.1 h.1
  have hm := MRG.isEngineModulus K
  have hn := MRG.order_le K
  set e₀ := (MRG.step K.modulus)^[k.toNat] e with he
  have hv0 := MRG.iterate_valid hm hn hv k.toNat
  have h0 : Splittable K e₀ := by
    refine ⟨MRG.valid_iff.2 hv0, fun h5 => ?_⟩
    obtain ⟨l, hl, hu⟩ := h.2 h5
    refine ⟨l, hl, fun i => ?_⟩
    rw [he, MRG.iterate_a]
    exact hu i
  have hadv : split true K e s k = split true K e₀ s 0 := by
    refine split_advance K e e₀ s k hs ?_
    rw [jump_eq, jump_eq, MRG.jump_eq hm hn hv, MRG.jump_eq hm hn hv0]
    have h1 : (k.setWidth 64 + 1 : BitVec 64).toNat = k.toNat + 1 := by
      have := k.isLt
      have h1 : (1 : BitVec 64).toNat = 1 := rfl
      rw [BitVec.toNat_add, BitVec.toNat_setWidth, h1]
      omega
    have h2 : ((0 : BitVec 32).setWidth 64 + 1 : BitVec 64).toNat = 1 := by decide
    rw [h1, h2, ← Function.iterate_add_apply, Nat.add_comm]
  obtain ⟨e', h1, h2, h3, h4⟩ := C88_split K e₀ h0 s 0 (by rw [BitVec.lt_def]; simpa using by omega)
  refine ⟨e', by rw [hadv, split_cuda h1], h2, ?_, ?_⟩
  · intro j
    rw [h3 j, call_funext, MRG.nth_call, MRG.nth_call, he, ← Function.iterate_add_apply]
    congr 2
    simp; omega
  · have hy : ∀ (f : MRG K.order) (hf : InRange K.modulus f) (j : Nat),
        nth (callYarn true K) f j = nth (callYarn false K) f j := by
      intro f hf j
      have ha : ∀ j (f : MRG K.order), InRange K.modulus f → afterCalls (callYarn true K) j f = afterCalls (callYarn false K) j f ∧
          InRange K.modulus (afterCalls (callYarn false K) j f) := by
        intro j
        induction j with
        | zero => exact fun f hf => ⟨rfl, hf⟩
        | succ j ih =>
          intro f hf
          have hf' : InRange K.modulus (callYarn false K f).2 := by
            rw [C88_yarn K f hf]; exact (C88_call K f hf).2.2.2.2
          show afterCalls _ j (callYarn true K f).2 = afterCalls _ j (callYarn false K f).2 ∧ InRange _ (afterCalls _ j _)
          rw [C89_yarn K f hf]
          exact ih _ hf'
      unfold nth
      rw [(ha j f hf).1, C89_yarn K _ (ha j f hf).2]
    intro j
    rw [hy e' h2, hy e h.1, h4 j, callYarn_funext, MRG.nth_callYarn, MRG.nth_callYarn, he, ← Function.iterate_add_apply]
    congr 3
    simp; omega

example : (split true .k3 (MRG.init .k3) 2 7 ≠ .throws (MRG.init .k3)) ∧ split false .k3 (MRG.init .k3) 2 7 = .throws (MRG.init .k3) := by
  constructor
  · obtain ⟨e', h, -⟩ := (C89_split_unchecked .k3 (MRG.init .k3) ⟨MRG.init_inRange _, fun h => absurd h (by decide)⟩ 2 7).1 (by decide)
    rw [h]; simp
  · exact ((C88_split_throws .k3 (MRG.init .k3) (MRG.init_inRange _) 2 7).1 _).2 ⟨rfl, Or.inr (by decide)⟩

end Trng.MRGWritten
