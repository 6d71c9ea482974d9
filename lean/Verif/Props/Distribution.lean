import Verif.Props.LCG64
import Verif.Props.LCG64CountShift
import Verif.Props.Count128
import Verif.Props.Minstd
import Verif.Props.MRG
import Verif.Props.LagFibPeriod
import Verif.Proofs.Mersenne
import Mathlib.Data.Nat.ChineseRemainder
import Mathlib.Data.Fintype.Pi

/-! Property C92: over a period all values occur equally often. -/
namespace Trng
open Spec

theorem bv_surjective {w : Nat} {f : BitVec w → BitVec w} (hf : Function.Injective f) : Function.Surjective f := by
  have hG : Function.Injective fun i : Fin (2 ^ w) => (f (BitVec.ofFin i)).toFin := fun i j hij => by
    have := hf (BitVec.toFin_inj.1 hij)
    exact congrArg BitVec.toFin this
  intro v
  obtain ⟨k, hk⟩ := Finite.surjective_of_injective hG v.toFin
  exact ⟨BitVec.ofFin k, BitVec.toFin_inj.1 hk⟩

/-! ### lcg64_count_shift -/

namespace LCG64Count

theorem prime_M : M.Prime := by
  have h : (2 ^ 61 - 1).Prime := Mersenne.prime_of_test (by omega) (by decide +kernel)
  exact h

theorem coprime_M : Nat.Coprime (2 ^ 64) M := Nat.Coprime.pow_left _ (by decide)

theorem lcg_eq_iff (e : LCG64) (ha : e.P.a.toNat % 4 = 1) (hb : e.P.b.toNat % 2 = 1) (i j : Nat) :
    LCG64.step^[i] e = LCG64.step^[j] e ↔ i ≡ j [MOD 2 ^ 64] := by
  have hp : Function.IsPeriodicPt LCG64.step (2 ^ 64) e := (LCG64.step_iterate_eq_self_iff e ha hb _).2 dvd_rfl
  rw [← hp.iterate_mod_apply i, ← hp.iterate_mod_apply j]
  constructor
  · intro h
    exact LCG64.iterate_injective e ha hb _ _ (Nat.mod_lt _ (by norm_num)) (Nat.mod_lt _ (by norm_num)) h
  · intro h
    rw [h]

theorem count_eq_iff (e : LCG64Count) (he : Valid e) (hi : e.P.inc.toNat ≠ 0) (i j : Nat) :
    (step^[i] e).count = (step^[j] e).count ↔ i ≡ j [MOD M] := by
  rw [BitVec.toNat_eq, count_iterate e he, count_iterate e he]
  have hcop : Nat.gcd M e.P.inc.toNat = 1 := Nat.coprime_of_lt_prime hi he.2 prime_M
  constructor
  · intro h
    exact Nat.ModEq.cancel_right_of_coprime hcop (Nat.ModEq.add_left_cancel' _ h)
  · intro h
    exact (h.mul_right _).add_left _

theorem r_iterate (e : LCG64Count) (n : Nat) : (step^[n] e).r = (LCG64.step^[n] e.lcg).r := by rw [← lcg_iterate]; rfl

theorem r_eq_iff (e : LCG64Count) (ha : e.P.a.toNat % 4 = 1) (hb : e.P.b.toNat % 2 = 1) (i j : Nat) :
    (step^[i] e).r = (step^[j] e).r ↔ i ≡ j [MOD 2 ^ 64] := by
  rw [r_iterate, r_iterate, ← lcg_eq_iff e.lcg ha hb]
  constructor
  · intro h
    have h1 := LCG64.step_iterate_P e.lcg i
    have h2 := LCG64.step_iterate_P e.lcg j
    revert h h1 h2
    generalize LCG64.step^[i] e.lcg = x
    generalize LCG64.step^[j] e.lcg = y
    intro h h1 h2
    cases x; cases y
    simp only at h h1 h2
    rw [h, h1, h2]
  · intro h
    rw [h]

theorem state_eq_iff (e : LCG64Count) (he : Valid e) (ha : e.P.a.toNat % 4 = 1) (hb : e.P.b.toNat % 2 = 1) (hi : e.P.inc.toNat ≠ 0) (i j : Nat) :
    step^[i] e = step^[j] e ↔ i ≡ j [MOD 2 ^ 64 * M] := by
  rw [← Nat.modEq_and_modEq_iff_modEq_mul coprime_M, ← r_eq_iff e ha hb, ← count_eq_iff e he hi]
  constructor
  · intro h; rw [h]; exact ⟨rfl, rfl⟩
  · rintro ⟨h1, h2⟩
    have h3 := P_iterate e i
    have h4 := P_iterate e j
    revert h1 h2 h3 h4
    generalize step^[i] e = x
    generalize step^[j] e = y
    intro h1 h2 h3 h4
    cases x; cases y
    simp only at h1 h2 h3 h4
    rw [h1, h2, h3, h4]

end LCG64Count

open LCG64Count in
/-- lcg64_count_shift recurs after exactly `2^64 (2^61 - 1)` calls, and so do the values it returns. -/
theorem C92_count_shift_period (e : LCG64Count) (hc : e.count.toNat < 2 ^ 61 - 1) (hi : e.P.inc.toNat < 2 ^ 61 - 1) (hi0 : e.P.inc.toNat ≠ 0)
    (ha : e.P.a.toNat % 4 = 1) (hb : e.P.b.toNat % 2 = 1) :
    ExactPeriod call e (2 ^ 64 * (2 ^ 61 - 1)) ∧ ExactOutputPeriod call e (2 ^ 64 * (2 ^ 61 - 1)) := by
  have he : Valid e := ⟨hc, hi⟩
  have hM : (2 ^ 61 - 1 : Nat) = M := rfl
  rw [hM]
  have hs := state_eq_iff e he ha hb hi0
  have hret : step^[2 ^ 64 * M] e = e := (hs _ 0).2 ((Nat.modEq_zero_iff_dvd).2 dvd_rfl)
  refine ⟨⟨by decide, by rw [afterCalls_call]; exact hret, fun t h0 ht h => ?_⟩, ⟨by decide, fun k => ?_, fun t h0 ht => ?_⟩⟩
  · rw [afterCalls_call] at h
    exact absurd (Nat.le_of_dvd h0 (Nat.modEq_zero_iff_dvd.1 ((hs t 0).1 h))) (by omega)
  · rw [nth_call, nth_call, show k + 2 ^ 64 * M + 1 = k + 1 + 2 ^ 64 * M by ring, Function.iterate_add_apply, hret]
  · by_contra hcon
    push Not at hcon
    have hsum : ∀ k, (step^[k + t + 1] e).r + (step^[k + t + 1] e).count = (step^[k + 1] e).r + (step^[k + 1] e).count := by
      intro k
      have h := hcon k
      rw [nth_call, nth_call] at h
      exact LCG64.shiftOut_injective h
    have hmul : ∀ n k, (step^[k + t * n + 1] e).r + (step^[k + t * n + 1] e).count = (step^[k + 1] e).r + (step^[k + 1] e).count := by
      intro n
      induction n with
      | zero => intro k; rfl
      | succ n ih =>
        intro k
        rw [show k + t * (n + 1) + 1 = k + t * n + t + 1 by ring, hsum, ih]
    -- the period divides out: first the counter, then the generator
    have h1 : M ∣ t := by
      have h := hmul (2 ^ 64) 0
      rw [(r_eq_iff e ha hb (0 + t * 2 ^ 64 + 1) (0 + 1)).2 (by
        rw [zero_add, zero_add, add_comm]
        exact (Nat.modEq_zero_iff_dvd.2 (dvd_mul_left _ _)).add_left 1)] at h
      have h := (count_eq_iff e he hi0 _ _).1 (add_left_cancel h)
      rw [zero_add, zero_add, add_comm] at h
      have h : t * 2 ^ 64 ≡ 0 [MOD M] := Nat.ModEq.add_left_cancel' 1 h
      exact (Nat.Coprime.dvd_of_dvd_mul_right coprime_M.symm) (Nat.modEq_zero_iff_dvd.1 h)
    have h2 : 2 ^ 64 ∣ t := by
      have h := hsum 0
      rw [(count_eq_iff e he hi0 (0 + t + 1) (0 + 1)).2 (by
        rw [zero_add, zero_add, add_comm]
        exact (Nat.modEq_zero_iff_dvd.2 h1).add_left 1)] at h
      have h := (r_eq_iff e ha hb _ _).1 (add_right_cancel h)
      rw [zero_add, zero_add, add_comm] at h
      exact Nat.modEq_zero_iff_dvd.1 (Nat.ModEq.add_left_cancel' 1 h)
    exact absurd (Nat.le_of_dvd h0 (coprime_M.mul_dvd_of_dvd_of_dvd h2 h1)) (by omega)

open LCG64Count in
/-- Over this period every 64-bit value is returned `2^61 - 1` times. -/
theorem C92_count_shift_uniform (e : LCG64Count) (hc : e.count.toNat < 2 ^ 61 - 1) (hi : e.P.inc.toNat < 2 ^ 61 - 1) (hi0 : e.P.inc.toNat ≠ 0)
    (ha : e.P.a.toNat % 4 = 1) (hb : e.P.b.toNat % 2 = 1) (v : BitVec 64) :
    ((Finset.range (2 ^ 64 * (2 ^ 61 - 1))).filter fun k => nth call e k = v).card = 2 ^ 61 - 1 := by
  have he : Valid e := ⟨hc, hi⟩
  have hM : (2 ^ 61 - 1 : Nat) = M := rfl
  rw [hM]
  have hM0 : 0 < M := by decide
  conv_rhs => rw [← Finset.card_range M]
  refine Finset.card_nbij (fun k => k % M) (fun k _ => Finset.mem_coe.2 (Finset.mem_range.2 (Nat.mod_lt _ hM0))) ?_ ?_
  · intro k hk k' hk' hkk
    simp only [Finset.coe_filter, Finset.mem_range, Set.mem_ofPred_eq] at hk hk'
    have h1 : nth call e k = nth call e k' := hk.2.trans hk'.2.symm
    rw [nth_call, nth_call] at h1
    have h1 := LCG64.shiftOut_injective h1
    have h2 : k ≡ k' [MOD M] := hkk
    rw [(count_eq_iff e he hi0 (k + 1) (k' + 1)).2 (h2.add_right 1)] at h1
    have h3 := Nat.ModEq.add_right_cancel' 1 ((r_eq_iff e ha hb _ _).1 (add_right_cancel h1))
    have h4 := (Nat.modEq_and_modEq_iff_modEq_mul coprime_M).1 ⟨h3, h2⟩
    exact Nat.ModEq.eq_of_lt_of_lt h4 hk.1 hk'.1
  · intro c hcr
    have hcr : c < M := Finset.mem_range.1 (Finset.mem_coe.1 hcr)
    obtain ⟨x, hx⟩ := bv_surjective LCG64.shiftOut_injective v
    obtain ⟨k1, ⟨-, hk1⟩, -⟩ := C08_lcg64_each_value_once e.lcg ha hb (x - (step^[c + 1] e).count)
    rw [LCG64.nth_call, ← r_iterate] at hk1
    obtain ⟨k, hka, hkb⟩ := Nat.chineseRemainder coprime_M k1 c
    have hlt := Nat.mod_lt k (show 0 < 2 ^ 64 * M by decide)
    have hm : k % (2 ^ 64 * M) ≡ k [MOD 2 ^ 64 * M] := Nat.mod_modEq _ _
    have hm1 := (hm.of_mul_right M).trans hka
    have hm2 := (hm.of_mul_left (2 ^ 64)).trans hkb
    refine ⟨k % (2 ^ 64 * M), ?_, ?_⟩
    · simp only [Finset.coe_filter, Finset.mem_range, Set.mem_ofPred_eq]
      refine ⟨hlt, ?_⟩
      rw [nth_call, ← hx]
      show LCG64.shiftOut _ = _
      congr 1
      rw [(r_eq_iff e ha hb (k % (2 ^ 64 * M) + 1) (k1 + 1)).2 (hm1.add_right 1),
        (count_eq_iff e he hi0 (k % (2 ^ 64 * M) + 1) (c + 1)).2 (hm2.add_right 1), hk1, BitVec.sub_add_cancel]
    · show k % (2 ^ 64 * M) % M = c
      have : k % (2 ^ 64 * M) % M = c % M := hm2
      rw [this, Nat.mod_eq_of_lt hcr]

/-- The built-in parameter sets, in every state that seeding produces. -/
example : ∀ P ∈ [LCG64Count.Default, LCG64Count.LEcuyer1, LCG64Count.LEcuyer2, LCG64Count.LEcuyer3], ∀ s : BitVec 64,
    let e := (LCG64Count.ofParam P).seed s
    e.count.toNat < 2 ^ 61 - 1 ∧ e.P.inc.toNat < 2 ^ 61 - 1 ∧ e.P.inc.toNat ≠ 0 ∧ e.P.a.toNat % 4 = 1 ∧ e.P.b.toNat % 2 = 1 := by
  intro P hP s
  have h : P.inc.toNat < 2 ^ 61 - 1 ∧ P.inc.toNat ≠ 0 ∧ P.a.toNat % 4 = 1 ∧ P.b.toNat % 2 = 1 := by revert P; decide
  refine ⟨?_, h.1, h.2.1, h.2.2.1, h.2.2.2⟩
  show (s % LCG64Count.modulus).toNat < _
  rw [BitVec.toNat_umod]
  exact Nat.mod_lt _ (by decide)

/-! ### count128_lcg_shift -/

open Count128 in
/-- Over the period of count128_lcg_shift every 64-bit value is returned `2^64` times. -/
theorem C92_count128_uniform (e : Count128) (h : e.P.increment.toNat % 2 = 1) (ha : e.P.a.toNat % 2 = 1) (v : BitVec 64) :
    ((Finset.range (2 ^ 128)).filter fun k => nth call e k = v).card = 2 ^ 64 := by
  obtain ⟨-, -, hmin⟩ := C14_count128_period e h
  have hinj : ∀ i j, i < 2 ^ 128 → j < 2 ^ 128 → e.r + BitVec.ofNat 128 (i + 1) * e.P.increment = e.r + BitVec.ofNat 128 (j + 1) * e.P.increment →
      i = j := by
    intro i j hi hj hij
    wlog hle : i ≤ j generalizing i j
    · exact (this j i hj hi hij.symm (by omega)).symm
    by_contra hne
    refine hmin (j - i) (by omega) (by omega) ?_
    rw [afterCalls_call, step_iterate]
    have h1 : BitVec.ofNat 128 (j + 1) = BitVec.ofNat 128 (i + 1) + BitVec.ofNat 128 (j - i) := by
      rw [← BitVec.ofNat_add]; congr 1; omega
    rw [h1, add_mul, ← add_assoc, left_eq_add] at hij
    rw [hij, add_zero]
  have hsurj : ∀ r : BitVec 128, ∃ k, k < 2 ^ 128 ∧ e.r + BitVec.ofNat 128 (k + 1) * e.P.increment = r := by
    intro r
    let G : Fin (2 ^ 128) → Fin (2 ^ 128) := fun i => (e.r + BitVec.ofNat 128 (i.val + 1) * e.P.increment).toFin
    have hG : Function.Injective G := fun i j hij => Fin.ext (hinj _ _ i.isLt j.isLt (BitVec.toFin_inj.1 hij))
    obtain ⟨k, hk⟩ := Finite.surjective_of_injective hG r.toFin
    exact ⟨k.val, k.isLt, BitVec.toFin_inj.1 hk⟩
  conv_rhs => rw [← Finset.card_range (2 ^ 64)]
  refine Finset.card_nbij (fun k => ((e.r + BitVec.ofNat 128 (k + 1) * e.P.increment).toNat / 2 ^ 64)) ?_ ?_ ?_
  · intro k _
    refine Finset.mem_coe.2 (Finset.mem_range.2 ?_)
    have := (e.r + BitVec.ofNat 128 (k + 1) * e.P.increment).isLt
    simp only
    omega
  · intro k hk k' hk' hkk
    simp only [Finset.coe_filter, Finset.mem_range, Set.mem_ofPred_eq] at hk hk'
    have h1 : nth call e k = nth call e k' := hk.2.trans hk'.2.symm
    rw [nth_call, nth_call] at h1
    have h2 := out_injective ha h1
    refine hinj _ _ hk.1 hk'.1 ?_
    simp only at hkk
    revert hkk h2
    generalize e.r + BitVec.ofNat 128 (k + 1) * e.P.increment = x
    generalize e.r + BitVec.ofNat 128 (k' + 1) * e.P.increment = y
    intro hkk h2
    have hhi : (x >>> 64).setWidth 64 = (y >>> 64).setWidth 64 := by
      apply BitVec.eq_of_toNat_eq
      rw [BitVec.toNat_setWidth, BitVec.toNat_setWidth, BitVec.toNat_ushiftRight, BitVec.toNat_ushiftRight, Nat.shiftRight_eq_div_pow,
        Nat.shiftRight_eq_div_pow, hkk]
    rw [hhi] at h2
    have h3 := congrArg BitVec.toNat ((BitVec.xor_left_inj _).1 h2)
    rw [BitVec.toNat_setWidth, BitVec.toNat_setWidth] at h3
    apply BitVec.eq_of_toNat_eq
    omega
  · intro c hc
    have hc : c < 2 ^ 64 := Finset.mem_range.1 (Finset.mem_coe.1 hc)
    have hlo : Function.Injective fun lo : BitVec 64 => output ⟨0, e.P.a, e.P.b⟩ (BitVec.ofNat 64 c) lo := by
      intro lo lo' hl
      exact (BitVec.xor_left_inj _).1 (output_injective (P := ⟨0, e.P.a, e.P.b⟩) ha hl)
    obtain ⟨lo, hlo⟩ := bv_surjective hlo v
    obtain ⟨k, hk, hr⟩ := hsurj (BitVec.ofNat 128 (c * 2 ^ 64 + lo.toNat))
    have hl := lo.isLt
    have hn : (BitVec.ofNat 128 (c * 2 ^ 64 + lo.toNat)).toNat = c * 2 ^ 64 + lo.toNat := by
      rw [BitVec.toNat_ofNat, Nat.mod_eq_of_lt (by omega)]
    refine ⟨k, ?_, ?_⟩
    · simp only [Finset.coe_filter, Finset.mem_range, Set.mem_ofPred_eq]
      refine ⟨hk, ?_⟩
      rw [nth_call, hr, ← hlo, out]
      congr 1
      · apply BitVec.eq_of_toNat_eq
        rw [BitVec.toNat_setWidth, BitVec.toNat_ushiftRight, Nat.shiftRight_eq_div_pow, hn, BitVec.toNat_ofNat]
        omega
      · apply BitVec.eq_of_toNat_eq
        rw [BitVec.toNat_setWidth, BitVec.toNat_and, hn, show (0xffffffffffffffff#128).toNat = 2 ^ 64 - 1 from rfl, Nat.and_two_pow_sub_one_eq_mod]
        omega
    · simp only
      rw [hr, hn]
      omega

/-- The default parameters. -/
example : (Count128.ofParam Count128.Default).P.increment.toNat % 2 = 1 ∧ (Count128.ofParam Count128.Default).P.a.toNat % 2 = 1 := by
  decide +kernel

/-! ### minstd -/

open Minstd in
/-- Over its period minstd returns every value from `min()` to `max()` exactly once. -/
theorem C92_minstd_once (e : Minstd) (h : e.Valid) (v : BitVec 32) (h1 : minVal ≤ v) (h2 : v ≤ maxVal) :
    ∃! k, k < 2 ^ 31 - 2 ∧ nth call e k = v := by
  obtain ⟨k, hk, hv⟩ := C18_minstd_all_values e h v h1 h2
  refine ⟨k, ⟨hk, hv⟩, ?_⟩
  rintro j ⟨hj, hjv⟩
  have hout : ∀ k, nth call e k = (step^[k + 1] e).r := fun k => by
    rw [nth, afterCalls_call, Function.iterate_succ_apply']; rfl
  have h3 : step^[j + 1] e = step^[k + 1] e := ext_toNat (by rw [← hout, ← hout, hv, hjv])
  have h4 := Nat.ModEq.add_right_cancel' 1 ((iterate_eq_iff e h _ _).1 h3)
  exact Nat.ModEq.eq_of_lt_of_lt h4 hj hk

example : (Minstd.seed ⟨1⟩ 123456789#64).Valid := by decide

/-! ### mrg and yarn engines -/

open MRG in
/-- Over a full period of a yarn engine every `n`-tuple of values except the zero tuple appears exactly once as `n` consecutive
values. -/
theorem C92_yarn_tuples (K : Kind) (l : List Int) (hl : l ∈ fullPeriod K) (e : MRG K.order) (hu : Uses e l)
    (h : InRange K.modulus e) (hz : NonZero e) (v : Fin K.order → Int) (hv : ∀ i, 0 ≤ v i ∧ v i < K.modulus)
    (hv0 : ∃ i, v i ≠ 0) :
    ∃! t, t < K.modulus ^ K.order - 1 ∧ ∀ i : Fin K.order, nth (callYarn K.modulus K.gen) e (t + i.val) = some (v i) := by
  have hg : documentedBase K = K.gen := by cases K <;> rfl
  have hm : documentedModulus K = K.modulus := by cases K <;> rfl
  have hperm := fun i => C30_yarn_permutation K (v i) (hv i).1 (hv i).2
  choose x hx hux using hperm
  have hiff : ∀ k i, nth (callYarn K.modulus K.gen) e k = some (v i) ↔ nth (call K.modulus) e k = x i := by
    intro k i
    rw [(C30_yarn_output K e h k).1, hg, hm, Option.some.injEq]
    constructor
    · intro h1
      exact hux i _ ⟨⟨(C26_mrg_range K e h k).1, (C26_mrg_range K e h k).2.1⟩, h1⟩
    · intro h1
      rw [h1]
      exact (hx i).2
  have hx0 : ∃ i, x i ≠ 0 := by
    obtain ⟨i, hi⟩ := hv0
    refine ⟨i, fun h0 => hi ?_⟩
    have := (hx i).2
    rw [h0, if_pos rfl] at this
    exact this.symm
  obtain ⟨t, ⟨ht, h1⟩, h2⟩ := C67_mrg_tuples K l hl e hu h hz x (fun i => (hx i).1) hx0
  refine ⟨t, ⟨ht, fun i => (hiff _ i).2 (h1 i)⟩, fun t' ht' => h2 t' ⟨ht'.1, fun i => (hiff _ i).1 (ht'.2 i)⟩⟩

/-- Counting from tuples: if every non-zero `n`-tuple of numbers below `m` appears exactly once, then every `d`-tuple appears
`m^(n-d)` times, the zero tuple once less. -/
theorem count_of_tuples {n m d : Nat} (hd : d ≤ n) (hm : 0 < m) (T : Nat) (hT : T = m ^ n - 1) (x : Nat → Int) (hx : ∀ k, 0 ≤ x k ∧ x k < m)
    (ht : ∀ v : Fin n → Int, (∀ i, 0 ≤ v i ∧ v i < m) → (∃ i, v i ≠ 0) → ∃! t, t < T ∧ ∀ i : Fin n, x (t + i.val) = v i)
    (v : Fin d → Int) (hv : ∀ i, 0 ≤ v i ∧ v i < m) :
    ((Finset.range T).filter fun t => ∀ i : Fin d, x (t + i.val) = v i).card = m ^ (n - d) - if ∀ i, v i = 0 then 1 else 0 := by
  classical
  have hne : ∀ t, t < T → ∃ i : Fin n, x (t + i.val) ≠ 0 := by
    intro t0 ht0
    by_contra hc
    push Not at hc
    let A := (Fintype.piFinset fun _ : Fin n => Finset.Ico 0 (m : Int)).erase 0
    have hA : A.card = T := by
      rw [Finset.card_erase_of_mem, Fintype.card_piFinset, hT]
      · simp
      · rw [Fintype.mem_piFinset]
        intro i
        rw [Finset.mem_Ico]
        exact ⟨le_rfl, by simpa using hm⟩
    have hmem : ∀ w ∈ A, ∃ t, t ∈ (Finset.range T).erase t0 ∧ ∀ i : Fin n, x (t + i.val) = w i := by
      intro w hw
      obtain ⟨hw0, hw⟩ := Finset.mem_erase.1 hw
      rw [Fintype.mem_piFinset] at hw
      obtain ⟨t, ⟨h1, h2⟩, -⟩ := ht w (fun i => Finset.mem_Ico.1 (hw i)) (by
        by_contra hc
        push Not at hc
        exact hw0 (funext hc))
      refine ⟨t, Finset.mem_erase.2 ⟨?_, Finset.mem_range.2 h1⟩, h2⟩
      rintro rfl
      exact hw0 (funext fun i => (h2 i).symm.trans (hc i))
    choose! f hf hfx using hmem
    have hle := Finset.card_le_card_of_injOn f hf (by
      intro w hw w' hw' hww
      funext i
      rw [← hfx w hw i, ← hfx w' hw' i, hww])
    rw [hA, Finset.card_erase_of_mem (Finset.mem_range.2 ht0), Finset.card_range] at hle
    omega
  let S : Fin n → Finset Int := fun i => if hi : i.val < d then {v ⟨i.val, hi⟩} else Finset.Ico 0 (m : Int)
  have hS : ∀ w : Fin n → Int, w ∈ Fintype.piFinset S ↔ (∀ i : Fin d, w ⟨i.val, by omega⟩ = v i) ∧ ∀ i, 0 ≤ w i ∧ w i < m := by
    intro w
    rw [Fintype.mem_piFinset]
    constructor
    · intro h
      have h1 : ∀ i : Fin d, w ⟨i.val, by omega⟩ = v i := by
        intro i
        have := h ⟨i.val, by omega⟩
        simp only [S, i.isLt, dif_pos, Finset.mem_singleton] at this
        exact this
      refine ⟨h1, fun i => ?_⟩
      by_cases hi : i.val < d
      · have := h1 ⟨i.val, hi⟩
        rw [show (⟨(⟨i.val, hi⟩ : Fin d).val, by omega⟩ : Fin n) = i from rfl] at this
        rw [this]; exact hv _
      · have := h i
        simp only [S, hi, dif_neg, not_false_eq_true, Finset.mem_Ico] at this
        exact this
    · rintro ⟨h1, h2⟩ i
      by_cases hi : i.val < d
      · simp only [S, hi, dif_pos, Finset.mem_singleton]
        exact h1 ⟨i.val, hi⟩
      · simp only [S, hi, dif_neg, not_false_eq_true, Finset.mem_Ico]
        exact h2 i
  have hcard : (Fintype.piFinset S).card = m ^ (n - d) := by
    rw [Fintype.card_piFinset]
    have h1 : ∀ i : Fin n, (S i).card = if i.val < d then 1 else m := by
      intro i
      by_cases hi : i.val < d
      · simp only [S, hi, dif_pos, Finset.card_singleton, if_true]
      · simp only [S, hi, dif_neg, not_false_eq_true, if_false, Int.card_Ico]
        omega
    rw [Finset.prod_congr rfl fun i _ => h1 i, Finset.prod_ite, Finset.prod_const_one, one_mul, Finset.prod_const]
    congr 1
    have h2 : (Finset.univ.filter fun i : Fin n => ¬ i.val < d).card = n - (Finset.univ.filter fun i : Fin n => i.val < d).card := by
      have := Finset.card_filter_add_card_filter_not (s := (Finset.univ : Finset (Fin n))) (fun i : Fin n => i.val < d)
      rw [Finset.card_univ, Fintype.card_fin] at this
      omega
    rw [h2, Fin.card_filter_val_lt, min_eq_right hd]
  have key : ((Finset.range T).filter fun t => ∀ i : Fin d, x (t + i.val) = v i).card = ((Fintype.piFinset S).erase 0).card := by
    refine Finset.card_nbij (fun t i => x (t + i.val)) ?_ ?_ ?_
    · intro t h
      simp only [Finset.coe_filter, Finset.mem_range, Set.mem_ofPred_eq] at h
      refine Finset.mem_coe.2 (Finset.mem_erase.2 ⟨fun h0 => ?_, (hS _).2 ⟨fun i => h.2 i, fun i => hx _⟩⟩)
      obtain ⟨i, hi⟩ := hne t h.1
      exact hi (congrFun h0 i)
    · intro t h t' h' htt
      simp only [Finset.coe_filter, Finset.mem_range, Set.mem_ofPred_eq] at h h'
      obtain ⟨u, -, hu⟩ := ht (fun i => x (t + i.val)) (fun i => hx _) (hne t h.1)
      rw [hu t ⟨h.1, fun i => rfl⟩, hu t' ⟨h'.1, fun i => (congrFun htt i).symm⟩]
    · intro w hw
      obtain ⟨hw0, hw⟩ := Finset.mem_erase.1 (Finset.mem_coe.1 hw)
      obtain ⟨hw1, hw2⟩ := (hS w).1 hw
      obtain ⟨t, ⟨h1, h2⟩, -⟩ := ht w hw2 (by
        by_contra hc
        push Not at hc
        exact hw0 (funext hc))
      refine ⟨t, ?_, funext h2⟩
      simp only [Finset.coe_filter, Finset.mem_range, Set.mem_ofPred_eq]
      exact ⟨h1, fun i => (h2 ⟨i.val, by omega⟩).trans (hw1 i)⟩
  rw [key]
  by_cases h0 : ∀ i, v i = 0
  · rw [if_pos h0, Finset.card_erase_of_mem, hcard]
    exact (hS 0).2 ⟨fun i => (h0 i).symm, fun i => ⟨le_rfl, by simpa using hm⟩⟩
  · rw [if_neg h0, Finset.erase_eq_of_notMem, hcard, Nat.sub_zero]
    intro hmem
    exact h0 fun i => (((hS 0).1 hmem).1 i).symm

open MRG in
/-- Over a full period of an mrg engine with `n` terms, every tuple of `d ≤ n` values appears `m^(n-d)` times as `d` consecutive
values, the zero tuple once less; in particular (`d = 1`) every value appears `m^(n-1)` times. -/
theorem C92_mrg_uniform (K : Kind) (l : List Int) (hl : l ∈ fullPeriod K) (e : MRG K.order) (hu : Uses e l)
    (h : InRange K.modulus e) (hz : NonZero e) (d : Nat) (hd : d ≤ K.order) (v : Fin d → Int) (hv : ∀ i, 0 ≤ v i ∧ v i < K.modulus) :
    ((Finset.range (K.modulus ^ K.order - 1)).filter fun t => ∀ i : Fin d, nth (call K.modulus) e (t + i.val) = v i).card =
      K.modulus ^ (K.order - d) - if ∀ i, v i = 0 then 1 else 0 := by
  refine count_of_tuples hd (by cases K <;> decide) _ rfl _ (fun k => ?_) (C67_mrg_tuples K l hl e hu h hz) v hv
  have := C26_mrg_range K e h k
  exact ⟨this.1, this.2.1⟩

open MRG in
/-- The same for yarn engines. -/
theorem C92_yarn_uniform (K : Kind) (l : List Int) (hl : l ∈ fullPeriod K) (e : MRG K.order) (hu : Uses e l)
    (h : InRange K.modulus e) (hz : NonZero e) (d : Nat) (hd : d ≤ K.order) (v : Fin d → Int) (hv : ∀ i, 0 ≤ v i ∧ v i < K.modulus) :
    ((Finset.range (K.modulus ^ K.order - 1)).filter fun t => ∀ i : Fin d, nth (callYarn K.modulus K.gen) e (t + i.val) = some (v i)).card =
      K.modulus ^ (K.order - d) - if ∀ i, v i = 0 then 1 else 0 := by
  choose x hx hx0 hx1 using C30_yarn_range K e h
  have he : ∀ t (y : Int), nth (callYarn K.modulus K.gen) e t = some y ↔ x t = y := fun t y => by rw [hx, Option.some.injEq]
  simp only [he]
  refine count_of_tuples hd (by cases K <;> decide) _ rfl x (fun k => ⟨hx0 k, hx1 k⟩) (fun w hw hw0 => ?_) v hv
  have := C92_yarn_tuples K l hl e hu h hz w hw hw0
  simp only [he] at this
  exact this

open MRG in
/-- The default engine mrg3 (and yarn3), also for pairs of values. -/
example : [2021422057, 1826992351, 1977753457] ∈ fullPeriod .k3 ∧ Uses (init .k3) [2021422057, 1826992351, 1977753457] ∧
    InRange (Kind.modulus .k3) (init .k3) ∧ NonZero (init .k3) ∧ 2 ≤ Kind.order .k3 := by
  refine ⟨by decide, ?_, init_inRange .k3, ⟨⟨1, by decide⟩, by decide⟩, by decide⟩
  intro i; revert i; decide

/-! ### lagged Fibonacci engines -/

namespace LagFib
open LinAlg

variable {P : Params} {w : Nat}

/-- a solution of the recurrence is determined by `L` consecutive values -/
theorem Sol.eq_of_window (h : Valid P) {y : Nat → GF2} (hy : Sol P y) {i j : Nat} (hw : ∀ t, t < P.last → y (i + t) = y (j + t)) (t : Nat) :
    y (i + t) = y (j + t) := by
  induction t using Nat.strong_induction_on with
  | _ t ih =>
    by_cases ht : t < P.last
    · exact hw t ht
    · obtain ⟨s, rfl⟩ : ∃ s, t = s + P.last := ⟨t - P.last, by omega⟩
      rw [← Nat.add_assoc, ← Nat.add_assoc, hy (i + s), hy (j + s)]
      congr 1
      apply List.map_congr_left
      intro l hl
      have := all_range h hl
      have := ih (s + P.last - l) (by omega)
      rw [show i + s + P.last - l = i + (s + P.last - l) by omega, show j + s + P.last - l = j + (s + P.last - l) by omega, this]

/-- every window appears exactly once -/
theorem Sol.windows (h : Valid P) (hp : Primitive P) {y : Nat → GF2} (hy : Sol P y) (hne : ∃ t, y t ≠ 0) (s : Nat) (v : Fin P.last → GF2)
    (hv : ∃ i, v i ≠ 0) : ∃! k, k < 2 ^ P.last - 1 ∧ ∀ i : Fin P.last, y (s + k + i.val) = v i := by
  have h2 := h.two_le
  have hfin : Fintype.card GF2 = 2 := by rfl
  have hinj : ∀ i j, i < 2 ^ P.last - 1 → j < 2 ^ P.last - 1 → (∀ t : Fin P.last, y (s + i + t.val) = y (s + j + t.val)) → i = j := by
    intro i j hi hj hij
    wlog hle : i ≤ j generalizing i j
    · exact (this j i hj hi (fun t => (hij t).symm) (by omega)).symm
    have h1 := hy.eq_of_window h (i := s + i) (j := s + j) (fun t ht => hij ⟨t, ht⟩)
    have h3 := hy.period_of_tail h (s + i) (j - i) (fun t => by
      have := h1 t
      rw [show t + (s + i) + (j - i) = s + j + t by omega, ← this, Nat.add_comm])
    have h4 := (hy.period_iff h hp hne _).1 h3
    by_contra hc
    have := Nat.le_of_dvd (by omega) h4
    omega
  have hzero : ∀ k, ∃ t : Fin P.last, y (s + k + t.val) ≠ 0 := by
    intro k
    by_contra hc
    push Not at hc
    obtain ⟨t, ht⟩ := hne
    refine ht (hy.zero_of_tail h (s + k) (fun t => ?_) t)
    induction t using Nat.strong_induction_on with
    | _ t ih =>
      by_cases ht : t < P.last
      · rw [Nat.add_comm]; exact hc ⟨t, ht⟩
      · obtain ⟨r, rfl⟩ : ∃ r, t = r + P.last := ⟨t - P.last, by omega⟩
        rw [show r + P.last + (s + k) = r + (s + k) + P.last by omega, hy]
        apply List.sum_eq_zero
        intro z hz
        obtain ⟨l, hl, rfl⟩ := List.mem_map.1 hz
        have := all_range h hl
        rw [show r + (s + k) + P.last - l = (r + P.last - l) + (s + k) by omega]
        exact ih _ (by omega)
  have himg : (Finset.range (2 ^ P.last - 1)).image (fun k (i : Fin P.last) => y (s + k + i.val)) = Finset.univ.erase 0 := by
    apply Finset.eq_of_subset_of_card_le
    · intro z hz
      obtain ⟨k, -, rfl⟩ := Finset.mem_image.1 hz
      refine Finset.mem_erase.2 ⟨fun hc => ?_, Finset.mem_univ _⟩
      obtain ⟨t, ht⟩ := hzero k
      exact ht (congrFun hc t)
    · rw [Finset.card_image_of_injOn, Finset.card_range, Finset.card_erase_of_mem (Finset.mem_univ _), Finset.card_univ, Fintype.card_fun,
        Fintype.card_fin, hfin]
      intro i hi j hj hij
      exact hinj i j (Finset.mem_range.1 (Finset.mem_coe.1 hi)) (Finset.mem_range.1 (Finset.mem_coe.1 hj)) (congrFun hij)
  have hmem : v ∈ (Finset.range (2 ^ P.last - 1)).image (fun k (i : Fin P.last) => y (s + k + i.val)) := by
    rw [himg]
    refine Finset.mem_erase.2 ⟨fun hc => ?_, Finset.mem_univ _⟩
    obtain ⟨i, hi⟩ := hv
    exact hi (congrFun hc i)
  obtain ⟨k, hk, hkv⟩ := Finset.mem_image.1 hmem
  refine ⟨k, ⟨Finset.mem_range.1 hk, congrFun hkv⟩, ?_⟩
  rintro j ⟨hj, hjv⟩
  exact hinj j k hj (Finset.mem_range.1 hk) fun t => by rw [hjv t]; exact (congrFun hkv t).symm

end LagFib

open LagFib LinAlg in
/-- Every bit of every predefined lagged Fibonacci engine with `^`, and the lowest bit of those with `+`, in every state in which that
bit is set in one of the last `L` words (`L` the largest lag): over a period of `2^L - 1` calls every sequence of `L` bits that are
not all zero appears exactly once in `L` consecutive values. -/
theorem C92_lagfib_bits (o : Op) (q : List Nat × Nat) (hq : q ∈ lags2 ++ lags4) {w : Nat} (e : LagFib ⟨o, q.1, q.2⟩ w) (b : Nat)
    (hb : o = .plus → b = 0)
    (hne : ∃ i, i < q.2 ∧ ∃ x : BitVec w, e.read ((e.index - BitVec.ofNat 32 i) &&& Params.mask ⟨o, q.1, q.2⟩) = some x ∧ x.getLsbD b = true)
    (v : Fin q.2 → Bool) (hv : ∃ i, v i = true) :
    ∃! k, k < 2 ^ q.2 - 1 ∧ ∀ i : Fin q.2, (nth call e (k + i.val)).map (·.getLsbD b) = some (v i) := by
  have h := C33_lagfib_builtin o q hq
  have hp := lagfib_primitive o q hq
  have hls := last_lt_size h
  obtain ⟨i, hi, x, hx, hxb⟩ := hne
  have hsol := sol_seqOf h e b hb
  obtain ⟨k, hk, hu⟩ := hsol.windows h hp (exists_seqOf h e hi hx hxb) q.2 (fun i => ⟨v i⟩) (by
    obtain ⟨i, hi⟩ := hv
    exact ⟨i, fun hc => by have := congrArg GF2.value hc; simp [hi, GF2.zero_value] at this⟩)
  have hbit : ∀ k (c : Bool), (nth call e k).map (·.getLsbD b) = some c ↔
      bit b (seqOf h e (q.2 + k + (Params.size ⟨o, q.1, q.2⟩ - q.2))) = ⟨c⟩ := by
    intro k c
    have hls' : q.2 < Params.size ⟨o, q.1, q.2⟩ := hls
    rw [nth_eq h, show q.2 + k + (Params.size ⟨o, q.1, q.2⟩ - q.2) = Params.size ⟨o, q.1, q.2⟩ + k by omega]
    simp [bit]
  have hiff : ∀ k, (∀ i : Fin q.2, (nth call e (k + i.val)).map (·.getLsbD b) = some (v i)) ↔
      ∀ i : Fin q.2, bit b (seqOf h e (q.2 + k + i.val + (Params.size ⟨o, q.1, q.2⟩ - q.2))) = ⟨v i⟩ := by
    intro k
    refine forall_congr' fun i => ?_
    rw [hbit, Nat.add_assoc q.2 k]
  simp only [hiff]
  exact ⟨k, hk, hu⟩

open LagFib in
/-- The state after seeding `lagfib2xor_521_32` and bit 0. -/
example : let e := LagFib.seed (P := ⟨.xor, [168], 521⟩) (w := 32) {} 1
    ∃ i, i < 521 ∧ ∃ v : BitVec 32, e.read ((e.index - BitVec.ofNat 32 i) &&& Params.mask ⟨.xor, [168], 521⟩) = some v ∧
      v.getLsbD 0 = true := ⟨520, by omega, 0x29d987d7, by decide +kernel, by decide⟩

end Trng
