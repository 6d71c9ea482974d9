import Verif.Proofs.LagFibWords
import Verif.Proofs.LagFibSeededA
import Verif.Proofs.LagFibSeededB
import Verif.Proofs.LagFibSeededC
import Verif.Spec.LagFibWords
import Verif.Props.Independence

/-! C111: the words of the lagged Fibonacci engines with `^`. -/
namespace Trng
open LagFib LinAlg Spec Trng.Uniform Independence

variable {w n : ℕ}

namespace LagFibWords

theorem gf2_odd {m : ℕ} (h : Odd m) : m • (1 : GF2) ≠ 0 := by
  obtain ⟨j, rfl⟩ := h
  rw [add_smul, mul_comm, mul_smul, two_nsmul, LagFib.GF2.add_self, smul_zero, one_smul, zero_add]
  decide

theorem sum_eq {ι : Type} [Fintype ι] [DecidableEq ι] (c x : ι → GF2) :
    ∑ i, c i * x i = (((Finset.univ.filter fun i => c i = 1).filter fun i => x i = 1).card) • (1 : GF2) := by
  rw [← Finset.sum_const, Finset.sum_filter, Finset.sum_filter]
  refine Finset.sum_congr rfl fun i _ => ?_
  generalize c i = a
  generalize x i = b
  rcases a with ⟨_ | _⟩ <;> rcases b with ⟨_ | _⟩ <;> decide

end LagFibWords
open LagFibWords

/-- C111: if no parity of bits of `n` successive numbers of a predefined lagged Fibonacci engine with `^` is constantly even, then over a period of
`2^L - 1` calls (`L` the largest lag) every `n` words appear in `n` successive calls equally often, namely `2^L / 2^(n w)` times, and `n` words 0 once less. -/
theorem C111_words (q : List Nat × Nat) (hq : q ∈ lags2 ++ lags4) (e : LagFib ⟨.xor, q.1, q.2⟩ w) (hno : e.NoRelation n) (v : Fin n → BitVec w) :
    (((Finset.range (2 ^ q.2 - 1)).filter fun k => ∀ i : Fin n, nth call e (k + i.val) = some (v i)).card : ℤ) * 2 ^ (n * w) =
      2 ^ q.2 - if v = 0 then 2 ^ (n * w) else 0 := by
  classical
  have h := C33_lagfib_builtin .xor q hq
  have hp := lagfib_primitive .xor q hq
  have hls : q.2 < Params.size ⟨.xor, q.1, q.2⟩ := last_lt_size h
  set y : Fin n × Fin w → ℕ → GF2 := fun p t => bit p.2.val (seqOf h e (t + p.1.val + (Params.size ⟨.xor, q.1, q.2⟩ - q.2))) with hy
  have hsol : ∀ p, Sol ⟨.xor, q.1, q.2⟩ (y p) := fun p t => by
    have := sol_seqOf h e p.2.val (fun hc => by cases hc) (t + p.1.val)
    have hr : ∀ l ∈ Params.all ⟨.xor, q.1, q.2⟩, t + p.1.val + q.2 - l = t + q.2 - l + p.1.val := fun l hl => by
      have := (all_range h hl).2
      simp only at this
      omega
    simp only [hy] at this ⊢
    rw [show t + q.2 + p.1.val = t + p.1.val + q.2 by omega]
    refine this.trans (congrArg List.sum (List.map_congr_left fun l hl => ?_))
    rw [hr l hl]
  have hval : ∀ k p, y p (q.2 + k) = bit p.2.val (seqOf h e (Params.size ⟨.xor, q.1, q.2⟩ + (k + p.1.val))) := fun k p => by
    simp only [hy]
    congr 2
    omega
  have hc := count h hp hsol q.2 (fun c hc => by
    by_contra hne
    obtain ⟨k, hk⟩ := hno (Finset.univ.filter fun p => c p = 1) (by
      obtain ⟨p, hp⟩ := Function.ne_iff.1 hne
      refine ⟨p, Finset.mem_filter.2 ⟨Finset.mem_univ p, ?_⟩⟩
      rw [Pi.zero_apply] at hp
      revert hp
      generalize c p = a
      rcases a with ⟨_ | _⟩ <;> decide)
    refine gf2_odd hk ?_
    rw [← hc k, sum_eq]
    congr 2
    refine Finset.filter_congr fun p _ => ?_
    rw [hval, nth_eq h]
    rw [Option.map_some, Option.some.injEq, bit]
    cases (seqOf h e (Params.size ⟨.xor, q.1, q.2⟩ + (k + p.1.val))).getLsbD p.2.val <;> decide) (fun p => bit p.2.val (v p.1))
  rw [Fintype.card_prod, Fintype.card_fin, Fintype.card_fin] at hc
  have hv0 : (fun p : Fin n × Fin w => bit p.2.val (v p.1)) = 0 ↔ v = 0 := by
    constructor
    · intro h0
      funext i
      refine ext_bit fun b hb => ?_
      rw [show bit b (v i) = 0 from congrFun h0 (i, ⟨b, hb⟩)]
      simp [bit]
      try rfl
    · rintro rfl
      funext p
      simp [bit]
      try rfl
  simp only [hv0] at hc
  refine Eq.trans ?_ hc
  congr 3
  refine Finset.filter_congr fun k _ => ?_
  simp only [hval, nth_eq h, Option.some.injEq]
  exact ⟨fun a p => by rw [a], fun a i => ext_bit fun b hb => a (i, ⟨b, hb⟩)⟩

/-- C111: the condition is needed: a parity that is constantly even excludes words that ought to appear. -/
theorem C111_needed (q : List Nat × Nat) (e : LagFib ⟨.xor, q.1, q.2⟩ w) {T : ℕ}
    (hall : ∀ v : Fin n → BitVec w, v ≠ 0 → ∃ k < T, ∀ i : Fin n, nth call e (k + i.val) = some (v i)) : e.NoRelation n := by
  classical
  rintro S ⟨p, hp⟩
  have hb : ∀ i : Fin n, ∀ j : Fin w, ((Pi.single p.1 (BitVec.twoPow w p.2.val) : Fin n → BitVec w) i).getLsbD j.val = true ↔ (i, j) = p := fun i j => by
    rcases eq_or_ne i p.1 with rfl | hi
    · rw [Pi.single_eq_same, BitVec.getLsbD_twoPow]
      simp [Prod.ext_iff, Fin.ext_iff, eq_comm]
    · rw [Pi.single_eq_of_ne hi]
      simp [Prod.ext_iff, hi]
  obtain ⟨k, -, hk⟩ := hall (Pi.single p.1 (BitVec.twoPow w p.2.val)) (fun h0 => by
    have := (hb p.1 p.2).2 rfl
    rw [h0] at this
    simp at this)
  refine ⟨k, ?_⟩
  have : (S.filter fun p => (nth call e (k + p.1.val)).map (·.getLsbD p.2.val) = some true) = {p} := by
    ext ⟨i, j⟩
    rw [Finset.mem_filter, Finset.mem_singleton, hk i, Option.map_some, Option.some.injEq, hb]
    exact ⟨fun a => a.2, fun a => ⟨a ▸ hp, a⟩⟩
  rw [this, Finset.card_singleton]
  exact odd_one

theorem lag_sound (P : Params) (h0 : 0 < w) (h64 : w ≤ 64) : (lagGen P w).Sound where
  lt := by
    have : 2 ^ 1 ≤ 2 ^ w := Nat.pow_le_pow_right (by norm_num) h0
    show 0 < 2 ^ w - 1
    omega
  small := by
    have : 2 ^ w ≤ 2 ^ 64 := Nat.pow_le_pow_right (by norm_num) h64
    have : 0 < 2 ^ w := by positivity
    show 2 ^ w - 1 - 0 < 2 ^ 64
    omega
  range s := by
    refine ⟨Nat.zero_le _, ?_⟩
    have := (((call s).1.getD 0).isLt)
    show ((call s).1.getD 0).toNat ≤ 2 ^ w - 1
    omega

theorem lag_after (P : Params) (e : LagFib P w) (k : ℕ) : afterCalls (lagGen P w).call k e = afterCalls call k e := by
  induction k generalizing e with
  | zero => rfl
  | succ k ih => exact ih _

/-- C111: the engine is a generator with equidistributed `n`-tuples, so the laws C101, C102, C104, C105 and C108 hold for the samples that the
distributions draw from it. -/
theorem C111_tuples (q : List Nat × Nat) (hq : q ∈ lags2 ++ lags4) (h0 : 0 < w) (h64 : w ≤ 64) (e : LagFib ⟨.xor, q.1, q.2⟩ w) (hno : e.NoRelation n) :
    (lagGen ⟨.xor, q.1, q.2⟩ w).Sound ∧ TuplesEquidistributed (lagGen ⟨.xor, q.1, q.2⟩ w) e (2 ^ q.2 - 1) n := by
  classical
  have h := C33_lagfib_builtin .xor q hq
  have h2 : 2 ≤ q.2 := h.two_le
  have hpow : 2 ^ 2 ≤ 2 ^ q.2 := Nat.pow_le_pow_right (by norm_num) h2
  have hw : 0 < 2 ^ w := by positivity
  refine ⟨lag_sound _ h0 h64, by omega, 2 ^ q.2 / 2 ^ (n * w), ?_, fun v => ?_⟩
  · have e1 : (lagGen ⟨.xor, q.1, q.2⟩ w).max - (lagGen ⟨.xor, q.1, q.2⟩ w).min + 1 = 2 ^ w := by
      show 2 ^ w - 1 - 0 + 1 = 2 ^ w
      omega
    rw [e1, ← pow_mul, mul_comm w n, Nat.sub_add_cancel (by omega)]
    exact Nat.div_mul_le_self _ _
  · rw [Nat.le_div_iff_mul_le (by positivity)]
    have hc := C111_words q hq e hno fun i => BitVec.ofNat w (v i)
    have hle : (((Finset.range (2 ^ q.2 - 1)).filter fun k => ∀ i : Fin n, nth call e (k + i.val) = some (BitVec.ofNat w (v i))).card : ℤ) * 2 ^ (n * w) ≤ 2 ^ q.2 := by
      rw [hc]
      split_ifs
      · linarith [pow_pos (two_pos : (0 : ℤ) < 2) (n * w)]
      · linarith
    have hle' : ((Finset.range (2 ^ q.2 - 1)).filter fun k => ∀ i : Fin n, nth call e (k + i.val) = some (BitVec.ofNat w (v i))).card * 2 ^ (n * w) ≤ 2 ^ q.2 := by
      exact_mod_cast hle
    refine le_trans (Nat.mul_le_mul_right _ (Finset.card_le_card fun k hk => ?_)) hle'
    rw [Finset.mem_filter] at hk ⊢
    refine ⟨hk.1, fun i => ?_⟩
    have hi := hk.2 i
    rw [nth, lag_after] at hi
    have hn := nth_eq h e (k + i.val)
    rw [nth] at hn
    have hi' : ((call (afterCalls call (k + i.val) e)).1.getD 0).toNat = v i := hi
    rw [hn, Option.getD_some] at hi'
    rw [nth, hn, ← hi', BitVec.ofNat_toNat, BitVec.setWidth_eq]

/-- A state of lagfib2xor_250_32 in which every third word has one bit set. -/
def lagExample : LagFib ⟨.xor, [103], 250⟩ 32 :=
  ⟨fun i => if i.val < 96 ∧ i.val % 3 = 2 then 1#32 <<< (i.val / 3) else 0, 249⟩

theorem lagExample_nth : ∀ j < 98, nth call lagExample j = some (if j < 96 ∧ j % 3 = 2 then 1#32 <<< (j / 3) else 0) := by decide +kernel

/-- Triples of numbers from this state. -/
theorem lagExample_noRelation : lagExample.NoRelation 3 := by
  rintro S ⟨p, hp⟩
  have h1 := p.1.isLt
  have h2 := p.2.isLt
  refine ⟨3 * p.2.val + 2 - p.1.val, ?_⟩
  have : (S.filter fun r => (nth call lagExample (3 * p.2.val + 2 - p.1.val + r.1.val)).map (·.getLsbD r.2.val) = some true) = {p} := by
    ext r
    have h3 := r.1.isLt
    have h4 := r.2.isLt
    rw [Finset.mem_filter, Finset.mem_singleton, lagExample_nth _ (by omega), Option.map_some, Option.some.injEq]
    constructor
    · rintro ⟨-, a⟩
      split_ifs at a with hc
      · simp at a
        refine Prod.ext (Fin.ext ?_) (Fin.ext ?_) <;> omega
      · simp at a
    · rintro rfl
      refine ⟨hp, ?_⟩
      rw [show 3 * r.2.val + 2 - r.1.val + r.1.val = 3 * r.2.val + 2 by omega, if_pos (by omega), show (3 * r.2.val + 2) / 3 = r.2.val by omega]
      simp
  rw [this, Finset.card_singleton]
  exact odd_one

example : TuplesEquidistributed (lagGen ⟨.xor, [103], 250⟩ 32) lagExample (2 ^ 250 - 1) 3 :=
  (C111_tuples ([103], 250) (by decide) (by norm_num) (by norm_num) lagExample lagExample_noRelation).2

/-- The words of 32 and of 64 bits have ranges for which the laws of the continuous distributions are stated. -/
example (P : Params) : ((lagGen P 32).min, (lagGen P 32).max) ∈ libraryRanges ∧ ((lagGen P 64).min, (lagGen P 64).max) ∈ libraryRanges :=
  ⟨show (0, 4294967296 - 1) ∈ libraryRanges by decide, show (0, 18446744073709551616 - 1) ∈ libraryRanges by decide⟩

namespace LagFibSeeded

theorem seeded32 : ∀ q ∈ lags2 ++ lags4, (init : LagFib ⟨.xor, q.1, q.2⟩ 32).NoRelation 1 := by
  rw [lags2, lags4]
  simp only [List.cons_append, List.nil_append, List.forall_mem_cons]
  exact ⟨noRelation (C33_lagfib_builtin .xor ([103], 250) (by decide)) rfl ok_103_250_32,
    noRelation (C33_lagfib_builtin .xor ([168], 521) (by decide)) rfl ok_168_521_32,
    noRelation (C33_lagfib_builtin .xor ([273], 607) (by decide)) rfl ok_273_607_32,
    noRelation (C33_lagfib_builtin .xor ([418], 1279) (by decide)) rfl ok_418_1279_32,
    noRelation (C33_lagfib_builtin .xor ([1029], 2281) (by decide)) rfl ok_1029_2281_32,
    noRelation (C33_lagfib_builtin .xor ([576], 3217) (by decide)) rfl ok_576_3217_32,
    noRelation (C33_lagfib_builtin .xor ([2098], 4423) (by decide)) rfl ok_2098_4423_32,
    noRelation (C33_lagfib_builtin .xor ([4187], 9689) (by decide)) rfl ok_4187_9689_32,
    noRelation (C33_lagfib_builtin .xor ([9842], 19937) (by decide)) rfl ok_9842_19937_32,
    noRelation (C33_lagfib_builtin .xor ([471, 1586, 6988], 9689) (by decide)) rfl ok_471_1586_6988_9689_32,
    noRelation (C33_lagfib_builtin .xor ([168, 205, 242], 521) (by decide)) rfl ok_168_205_242_521_32,
    noRelation (C33_lagfib_builtin .xor ([147, 239, 515], 607) (by decide)) rfl ok_147_239_515_607_32,
    noRelation (C33_lagfib_builtin .xor ([418, 705, 992], 1279) (by decide)) rfl ok_418_705_992_1279_32,
    noRelation (C33_lagfib_builtin .xor ([305, 610, 915], 2281) (by decide)) rfl ok_305_610_915_2281_32,
    noRelation (C33_lagfib_builtin .xor ([576, 871, 1461], 3217) (by decide)) rfl ok_576_871_1461_3217_32,
    noRelation (C33_lagfib_builtin .xor ([1419, 1736, 2053], 4423) (by decide)) rfl ok_1419_1736_2053_4423_32,
    noRelation (C33_lagfib_builtin .xor ([471, 2032, 4064], 9689) (by decide)) rfl ok_471_2032_4064_9689_32,
    noRelation (C33_lagfib_builtin .xor ([3860, 7083, 11580], 19937) (by decide)) rfl ok_3860_7083_11580_19937_32,
    by simp⟩

theorem seeded64 : ∀ q ∈ lags2 ++ lags4, (init : LagFib ⟨.xor, q.1, q.2⟩ 64).NoRelation 1 := by
  rw [lags2, lags4]
  simp only [List.cons_append, List.nil_append, List.forall_mem_cons]
  exact ⟨noRelation (C33_lagfib_builtin .xor ([103], 250) (by decide)) rfl ok_103_250_64,
    noRelation (C33_lagfib_builtin .xor ([168], 521) (by decide)) rfl ok_168_521_64,
    noRelation (C33_lagfib_builtin .xor ([273], 607) (by decide)) rfl ok_273_607_64,
    noRelation (C33_lagfib_builtin .xor ([418], 1279) (by decide)) rfl ok_418_1279_64,
    noRelation (C33_lagfib_builtin .xor ([1029], 2281) (by decide)) rfl ok_1029_2281_64,
    noRelation (C33_lagfib_builtin .xor ([576], 3217) (by decide)) rfl ok_576_3217_64,
    noRelation (C33_lagfib_builtin .xor ([2098], 4423) (by decide)) rfl ok_2098_4423_64,
    noRelation (C33_lagfib_builtin .xor ([4187], 9689) (by decide)) rfl ok_4187_9689_64,
    noRelation (C33_lagfib_builtin .xor ([9842], 19937) (by decide)) rfl ok_9842_19937_64,
    noRelation (C33_lagfib_builtin .xor ([471, 1586, 6988], 9689) (by decide)) rfl ok_471_1586_6988_9689_64,
    noRelation (C33_lagfib_builtin .xor ([168, 205, 242], 521) (by decide)) rfl ok_168_205_242_521_64,
    noRelation (C33_lagfib_builtin .xor ([147, 239, 515], 607) (by decide)) rfl ok_147_239_515_607_64,
    noRelation (C33_lagfib_builtin .xor ([418, 705, 992], 1279) (by decide)) rfl ok_418_705_992_1279_64,
    noRelation (C33_lagfib_builtin .xor ([305, 610, 915], 2281) (by decide)) rfl ok_305_610_915_2281_64,
    noRelation (C33_lagfib_builtin .xor ([576, 871, 1461], 3217) (by decide)) rfl ok_576_871_1461_3217_64,
    noRelation (C33_lagfib_builtin .xor ([1419, 1736, 2053], 4423) (by decide)) rfl ok_1419_1736_2053_4423_64,
    noRelation (C33_lagfib_builtin .xor ([471, 2032, 4064], 9689) (by decide)) rfl ok_471_2032_4064_9689_64,
    noRelation (C33_lagfib_builtin .xor ([3860, 7083, 11580], 19937) (by decide)) rfl ok_3860_7083_11580_19937_64,
    by simp⟩

end LagFibSeeded

/-- C111: default constructed engines of both word sizes meet the condition for single words: over a period every word appears `2^L / 2^w` times, and 0 once
less. -/
theorem C111_default (q : List Nat × Nat) (hq : q ∈ lags2 ++ lags4) (hw : w = 32 ∨ w = 64) (v : BitVec w) :
    ((((Finset.range (2 ^ q.2 - 1)).filter fun k => nth call (init : LagFib ⟨.xor, q.1, q.2⟩ w) k = some v).card : ℤ) * 2 ^ w =
      2 ^ q.2 - if v = 0 then 2 ^ w else 0) ∧
    Equidistributed (lagGen ⟨.xor, q.1, q.2⟩ w) init (2 ^ q.2 - 1) := by
  have hno : (init : LagFib ⟨.xor, q.1, q.2⟩ w).NoRelation 1 := by
    rcases hw with rfl | rfl
    · exact LagFibSeeded.seeded32 q hq
    · exact LagFibSeeded.seeded64 q hq
  have h := C111_words q hq init hno fun _ => v
  have h0 : (fun _ : Fin 1 => v) = 0 ↔ v = 0 := ⟨fun h => congrFun h 0, fun h => by rw [h]; rfl⟩
  have h1 : ∀ k, (∀ i : Fin 1, nth call (init : LagFib ⟨.xor, q.1, q.2⟩ w) (k + i.val) = some v) ↔ nth call (init : LagFib ⟨.xor, q.1, q.2⟩ w) k = some v :=
    fun k => ⟨fun h => h 0, fun h i => by rw [show i.val = 0 by omega]; exact h⟩
  simp only [h0, h1, one_mul] at h
  exact ⟨h, Props.C104_single.1 (C111_tuples q hq (by omega) (by omega) init hno).2⟩

/-- The default lagfib4xor_19937 with words of 64 bits. -/
example : ([3860, 7083, 11580], 19937) ∈ lags2 ++ lags4 := by decide

end Trng
