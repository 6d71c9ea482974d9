import Verif.Proofs.LeapfrogUniform
import Verif.Props.PeriodLaw

/-! Property C103: the streams that `split` makes are uniform over a period. -/
namespace Trng.Props
open Spec PeriodLaw LeapfrogUniform Trng.Uniform

/-! ### Each stream -/

/-- C103, lcg64 and lcg64_shift: if the number of streams is odd, every stream returns every number equally often over `2^64` calls. -/
theorem C103_lcg64 (e : LCG64) (ha : e.P.a.toNat % 4 = 1) (hb : e.P.b.toNat % 2 = 1) (s n : BitVec 32) (hn : n < s) (hs : s.toNat % 2 = 1) :
    ∃ e', e.split s n = .ok e' ∧ Equidistributed (gen64 LCG64.call) e' (2 ^ 64) ∧ Equidistributed (gen64 LCG64.callShift) e' (2 ^ 64) := by
  obtain ⟨e', h, hl⟩ := C03_lcg64_split_leapfrog e (by omega) s n hn
  obtain ⟨e2, h2, hl2⟩ := C03_lcg64_shift_split_leapfrog e (by omega) s n hn
  obtain rfl : e' = e2 := by rw [h] at h2; injection h2
  have hco : Nat.Coprime s.toNat (2 ^ 64) := ((Nat.coprime_two_right).2 (Nat.odd_iff.2 hs)).pow_right 64
  refine ⟨e', h, leapfrog_equi (n := n.toNat) (C101_lcg64 e ha hb).1 (fun k => ?_) hco (fun k => ?_),
    leapfrog_equi (n := n.toNat) (C101_lcg64 e ha hb).2 (fun k => ?_) hco (fun k => ?_)⟩
  · rw [gen64_nth, gen64_nth, nth_period (C08_lcg64_period e ha hb).1.2.1]
  · rw [gen64_nth, gen64_nth, hl]
  · rw [gen64_nth, gen64_nth, nth_period (C08_lcg64_period e ha hb).2.2.1]
  · rw [gen64_nth, gen64_nth, hl2]

example : ∃ e', LCG64.split ⟨LCG64.Default, 0⟩ 7 3 = .ok e' ∧ Equidistributed (gen64 LCG64.call) e' (2 ^ 64) := by
  obtain ⟨e', h, h1, -⟩ := C103_lcg64 ⟨LCG64.Default, 0⟩ (by decide) (by decide) 7 3 (by decide) (by decide)
  exact ⟨e', h, h1⟩

/-- The property fails if the number of streams is even: no stream returns all the numbers equally often, over any number of calls. -/
theorem C103_lcg64_wrong (e : LCG64) (ha : e.P.a.toNat % 4 = 1) (hb : e.P.b.toNat % 2 = 1) (s n : BitVec 32) (hn : n < s) (hs : s.toNat % 2 = 0) :
    ∃ e', e.split s n = .ok e' ∧ ∀ T, ¬ Equidistributed (gen64 LCG64.call) e' T ∧ ¬ Equidistributed (gen64 LCG64.callShift) e' T := by
  obtain ⟨e', h, hl⟩ := C03_lcg64_split_leapfrog e (by omega) s n hn
  obtain ⟨e2, h2, hl2⟩ := C03_lcg64_shift_split_leapfrog e (by omega) s n hn
  obtain rfl : e' = e2 := by rw [h] at h2; injection h2
  have key : ∀ call : LCG64 → BitVec 64 × LCG64, (∀ v, ∃! k, k < 2 ^ 64 ∧ nth call e k = v) → afterCalls call (2 ^ 64) e = e →
      Leapfrog call e e' s.toNat n.toNat → ∀ T, ¬ Equidistributed (gen64 call) e' T := by
    intro call honce hp hl
    have hper := nth_period hp
    have hinj : ∀ i j, i < 2 ^ 64 → j < 2 ^ 64 → nth call e i = nth call e j → i = j := fun i j hi hj h =>
      (honce (nth call e j)).unique ⟨hi, h⟩ ⟨hj, rfl⟩
    have hcard : ((Finset.range (2 ^ 63)).image fun i => (nth call e (2 * i + n.toNat % 2)).toNat).card = 2 ^ 63 := by
      rw [Finset.card_image_of_injOn, Finset.card_range]
      intro i hi j hj hij
      rw [Finset.mem_coe, Finset.mem_range] at hi hj
      have := hinj _ _ (by omega) (by omega) (BitVec.eq_of_toNat_eq hij)
      omega
    refine not_equi (V := (Finset.range (2 ^ 63)).image fun i => (nth call e (2 * i + n.toNat % 2)).toNat) (fun k => ?_) ?_ ?_
    · rw [gen64_nth, hl k, nth_mod hper, Finset.mem_image]
      obtain ⟨q, hq⟩ : ∃ q, k * s.toNat = 2 * q := by
        obtain ⟨a, ha⟩ := Nat.dvd_of_mod_eq_zero hs
        exact ⟨k * a, by rw [ha]; ring⟩
      rw [hq]
      generalize hr : (2 * q + n.toNat) % 2 ^ 64 = r
      have h1 : r < 2 ^ 64 := by rw [← hr]; exact Nat.mod_lt _ (by norm_num)
      have h2 : 2 * (r / 2) + n.toNat % 2 = r := by omega
      exact ⟨r / 2, Finset.mem_range.2 (by omega), by rw [h2]⟩
    · rw [hcard]; show 2 * 2 ^ 63 ≤ 18446744073709551616 - 1 - 0 + 1; norm_num
    · rw [hcard]; norm_num
  exact ⟨e', h, fun T => ⟨key _ (C08_lcg64_each_value_once e ha hb) (C08_lcg64_period e ha hb).1.2.1 hl T,
    key _ (C08_lcg64_shift_each_value_once e ha hb) (C08_lcg64_period e ha hb).2.2.1 hl2 T⟩⟩

example : ∃ e', LCG64.split ⟨LCG64.Default, 0⟩ 2 0 = .ok e' ∧ ∀ T, ¬ Equidistributed (gen64 LCG64.call) e' T := by
  obtain ⟨e', h, h1⟩ := C103_lcg64_wrong ⟨LCG64.Default, 0⟩ (by decide) (by decide) 2 0 (by decide) (by decide)
  exact ⟨e', h, fun T => (h1 T).1⟩

/-- C103, lcg64 and lcg64_shift: the values of a stream recur after exactly `2^64` calls divided by the largest power of two that divides the number of
streams. -/
theorem C103_lcg64_period (e : LCG64) (ha : e.P.a.toNat % 4 = 1) (hb : e.P.b.toNat % 2 = 1) (s n : BitVec 32) (hn : n < s) :
    ∃ e', e.split s n = .ok e' ∧ ExactOutputPeriod LCG64.call e' (2 ^ 64 / Nat.gcd (2 ^ 64) s.toNat) ∧
      ExactOutputPeriod LCG64.callShift e' (2 ^ 64 / Nat.gcd (2 ^ 64) s.toNat) := by
  obtain ⟨e', h, hl⟩ := C03_lcg64_split_leapfrog e (by omega) s n hn
  obtain ⟨e2, h2, hl2⟩ := C03_lcg64_shift_split_leapfrog e (by omega) s n hn
  obtain rfl : e' = e2 := by rw [h] at h2; injection h2
  exact ⟨e', h,
    leapfrog_period (by norm_num) (nth_period (C08_lcg64_period e ha hb).1.2.1)
      (fun i j hi hj h => (C08_lcg64_each_value_once e ha hb _).unique ⟨hi, h⟩ ⟨hj, rfl⟩) hl,
    leapfrog_period (by norm_num) (nth_period (C08_lcg64_period e ha hb).2.2.1)
      (fun i j hi hj h => (C08_lcg64_shift_each_value_once e ha hb _).unique ⟨hi, h⟩ ⟨hj, rfl⟩) hl2⟩

/-- With 2^20 streams only 2^44 calls are left to each of them. -/
example : ∃ e', LCG64.split ⟨LCG64.Default, 0⟩ 1048576 5 = .ok e' ∧ ExactOutputPeriod LCG64.call e' (2 ^ 44) := by
  obtain ⟨e', h, h1, -⟩ := C103_lcg64_period ⟨LCG64.Default, 0⟩ (by decide) (by decide) 1048576 5 (by decide)
  exact ⟨e', h, h1⟩

/-- C103, lcg64_count_shift. -/
theorem C103_lcg64_count_shift (e : LCG64Count) (hc : e.count.toNat < 2 ^ 61 - 1) (hi : e.P.inc.toNat < 2 ^ 61 - 1) (hi0 : e.P.inc.toNat ≠ 0)
    (ha : e.P.a.toNat % 4 = 1) (hb : e.P.b.toNat % 2 = 1) (s n : BitVec 32) (hn : n < s) (hs : s.toNat % 2 = 1) :
    ∃ e', e.split s n = .ok e' ∧ Equidistributed (gen64 LCG64Count.call) e' (2 ^ 64 * (2 ^ 61 - 1)) := by
  obtain ⟨e', h, hl, -⟩ := C11_count_shift_split_leapfrog e ⟨hc, hi⟩ (by omega) s n hn
  have hE := C101_lcg64_count_shift e hc hi hi0 ha hb
  have hp := (C92_count_shift_period e hc hi hi0 ha hb).1.2.1
  have hco : Nat.Coprime s.toNat (2 ^ 64 * LCG64Count.M) := by
    refine Nat.Coprime.mul_right (((Nat.coprime_two_right).2 (Nat.odd_iff.2 hs)).pow_right 64) ?_
    refine Nat.Coprime.symm ((Nat.Prime.coprime_iff_not_dvd LCG64Count.prime_M).2 fun hd => ?_)
    have h1 := Nat.le_of_dvd (by omega) hd
    have h2 := s.isLt
    have h3 : LCG64Count.M = 2305843009213693951 := rfl
    omega
  have hM : (2 ^ 61 - 1 : ℕ) = LCG64Count.M := rfl
  rw [hM] at hE hp ⊢
  revert hE hp hco
  generalize 2 ^ 64 * LCG64Count.M = T
  intro hE hp hco
  refine ⟨e', h, leapfrog_equi (n := n.toNat) hE (fun k => ?_) hco fun k => ?_⟩
  · rw [gen64_nth, gen64_nth, nth_period hp]
  · rw [gen64_nth, gen64_nth, hl]

example : ∃ e', (LCG64Count.ofParam LCG64Count.Default).split 5 4 = .ok e' ∧ Equidistributed (gen64 LCG64Count.call) e' (2 ^ 64 * (2 ^ 61 - 1)) :=
  C103_lcg64_count_shift _ (by decide) (by decide) (by decide) (by decide) (by decide) 5 4 (by decide) (by decide)

/-- C103, count128_lcg_shift. -/
theorem C103_count128 (e : Count128) (hi : e.P.increment.toNat % 2 = 1) (ha : e.P.a.toNat % 2 = 1) (s n : BitVec 32) (hn : n < s)
    (hs : s.toNat % 2 = 1) : ∃ e', e.split s n = .ok e' ∧ Equidistributed (gen64 Count128.call) e' (2 ^ 128) := by
  obtain ⟨e', h, hl⟩ := C13_count128_split_leapfrog e s n hn
  refine ⟨e', h, leapfrog_equi (n := n.toNat) (C101_count128 e hi ha) (fun k => ?_)
    (((Nat.coprime_two_right).2 (Nat.odd_iff.2 hs)).pow_right 128) fun k => ?_⟩
  · rw [gen64_nth, gen64_nth, nth_period (C14_count128_period e hi).2.1]
  · rw [gen64_nth, gen64_nth, hl]

example : ∃ e', (Count128.ofParam Count128.Default).split 3 2 = .ok e' ∧ Equidistributed (gen64 Count128.call) e' (2 ^ 128) :=
  C103_count128 _ (by decide +kernel) (by decide +kernel) 3 2 (by decide) (by decide)

open MRG in
theorem full_paramLists (K : Kind) : ∀ l ∈ fullPeriod K, l ∈ K.paramLists := by
  cases K <;> decide

open MRG in
theorem full_splittable (K : Kind) {l : List Int} (hl : l ∈ fullPeriod K) {e : MRG K.order} (he : InRange K.modulus e) (hu : Uses e l) : Splittable K e :=
  ⟨he, fun _ => ⟨l, full_paramLists K l hl, hu⟩⟩

open MRG in
/-- C103, the mrg and yarn engines with the parameter sets of full period: if the number of streams has no divisor in common with the period, every
stream returns every number equally often over a period. -/
theorem C103_mrg_yarn (K : Kind) {l : List Int} (hl : l ∈ fullPeriod K) (e : {e : MRG K.order // InRange K.modulus e}) (hu : Uses e.1 l) (hz : NonZero e.1)
    (s n : BitVec 32) (hn : n < s) (hs : Nat.Coprime s.toNat (K.modulus ^ K.order - 1)) :
    ∃ e' : {e : MRG K.order // InRange K.modulus e}, split K.modulus e.1 s n = .ok e'.1 ∧
      Equidistributed (mrgGen K) e' (K.modulus ^ K.order - 1) ∧ Equidistributed (yarnGen K) e' (K.modulus ^ K.order - 1) := by
  obtain ⟨e', h, hr, hl1, hl2⟩ := C28_mrg_split_leapfrog K e.1 (full_splittable K hl e.2 hu) s n hn
  obtain ⟨p1, -, p2, -⟩ := C32_mrg_period_partial K l hl e.1 hu e.2 hz
  refine ⟨⟨e', hr⟩, h, leapfrog_equi (n := n.toNat) (mrg_equi K hl e hu hz) (fun k => ?_) hs (fun k => ?_),
    leapfrog_equi (n := n.toNat) (yarn_equi K hl e hu hz) (fun k => ?_) hs (fun k => ?_)⟩
  · rw [mrgGen, sub_nth, sub_nth, nth_period p1.2.1]
  · rw [mrgGen, sub_nth, sub_nth, hl1]
  · rw [yarnGen, sub_nth, sub_nth, nth_period p2.2.1]
  · rw [yarnGen, sub_nth, sub_nth, hl2]

open MRG in
/-- The default yarn3, 5 streams. -/
example : ∃ e' : {e : MRG (Kind.order .k3) // InRange (Kind.modulus .k3) e}, split (Kind.modulus .k3) (init .k3) 5 2 = .ok e'.1 ∧
    Equidistributed (yarnGen .k3) e' (Kind.modulus .k3 ^ Kind.order .k3 - 1) := by
  obtain ⟨e', h, -, h2⟩ := C103_mrg_yarn .k3 (l := [2021422057, 1826992351, 1977753457]) (by decide) ⟨init .k3, init_inRange .k3⟩
    (by intro i; revert i; decide) ⟨⟨1, by decide⟩, by decide⟩ 5 2 (by decide) (by decide +kernel)
  exact ⟨e', h, h2⟩

open XR Rounded in
/-- With C101 and C102 the samples of the distributions follow their law over a period of a stream: exponential samples of one of seven lcg64. -/
example : ∃ e', LCG64.split ⟨LCG64.Default, 0⟩ 7 3 = .ok e' ∧
    FollowsUpTo (sampleOC (exponential doubleMachine (fin 3)) (gen64 LCG64.call)) e' (2 ^ 64) (exponentialLaw 3)
      (1e-13 + 13 / ((gen64 LCG64.call).max - (gen64 LCG64.call).min : ℝ) + 1 / (2 ^ 64 : ℕ)) := by
  obtain ⟨e', h, h1, -⟩ := C103_lcg64 ⟨LCG64.Default, 0⟩ (by decide) (by decide) 7 3 (by decide) (by decide)
  exact ⟨e', h, C101_exponential C100_machine (by norm_num) (gen64_sound _) h1 (by norm_num) (by norm_num)⟩

/-! ### All streams together -/

/-- C103, lcg64 and lcg64_shift: whatever the number of streams, all of them together return every number equally often. -/
theorem C103_lcg64_pooled (e : LCG64) (ha : e.P.a.toNat % 4 = 1) (hb : e.P.b.toNat % 2 = 1) (s : BitVec 32) :
    ∃ E : ℕ → LCG64, (∀ n, n < s.toNat → e.split s (BitVec.ofNat 32 n) = .ok (E n)) ∧
      PooledEquidistributed (gen64 LCG64.call) E s.toNat (2 ^ 64) ∧ PooledEquidistributed (gen64 LCG64.callShift) E s.toNat (2 ^ 64) := by
  have hlt : ∀ n, n < s.toNat → BitVec.ofNat 32 n < s ∧ (BitVec.ofNat 32 n).toNat = n := fun n hn => by
    have := s.isLt
    have h : (BitVec.ofNat 32 n).toNat = n := by rw [BitVec.toNat_ofNat, Nat.mod_eq_of_lt (by omega)]
    exact ⟨by rw [BitVec.lt_def, h]; exact hn, h⟩
  have hex : ∀ n, ∃ e', n < s.toNat → e.split s (BitVec.ofNat 32 n) = .ok e' ∧ Leapfrog LCG64.call e e' s.toNat n ∧
      Leapfrog LCG64.callShift e e' s.toNat n := fun n => by
    by_cases hn : n < s.toNat
    · obtain ⟨h1, h2⟩ := hlt n hn
      obtain ⟨e', h, hl⟩ := C03_lcg64_split_leapfrog e (by omega) s _ h1
      obtain ⟨e2, h2', hl2⟩ := C03_lcg64_shift_split_leapfrog e (by omega) s _ h1
      obtain rfl : e' = e2 := by rw [h] at h2'; injection h2'
      rw [h2] at hl hl2
      exact ⟨e', fun _ => ⟨h, hl, hl2⟩⟩
    · exact ⟨e, fun h => absurd h hn⟩
  choose E hE using hex
  refine ⟨E, fun n hn => (hE n hn).1, leapfrog_pooled (C101_lcg64 e ha hb).1 (fun k => ?_) fun n hn k => ?_,
    leapfrog_pooled (C101_lcg64 e ha hb).2 (fun k => ?_) fun n hn k => ?_⟩
  · rw [gen64_nth, gen64_nth, nth_period (C08_lcg64_period e ha hb).1.2.1]
  · rw [gen64_nth, gen64_nth, (hE n hn).2.1 k]
  · rw [gen64_nth, gen64_nth, nth_period (C08_lcg64_period e ha hb).2.2.1]
  · rw [gen64_nth, gen64_nth, (hE n hn).2.2 k]

example : ∃ E : ℕ → LCG64, (∀ n, n < 2 → LCG64.split ⟨LCG64.Default, 0⟩ 2 (BitVec.ofNat 32 n) = .ok (E n)) ∧
    PooledEquidistributed (gen64 LCG64.call) E 2 (2 ^ 64) := by
  obtain ⟨E, h, h1, -⟩ := C103_lcg64_pooled ⟨LCG64.Default, 0⟩ (by decide) (by decide) 2
  exact ⟨E, h, h1⟩

/-- C103, lcg64_count_shift. -/
theorem C103_lcg64_count_shift_pooled (e : LCG64Count) (hc : e.count.toNat < 2 ^ 61 - 1) (hi : e.P.inc.toNat < 2 ^ 61 - 1) (hi0 : e.P.inc.toNat ≠ 0)
    (ha : e.P.a.toNat % 4 = 1) (hb : e.P.b.toNat % 2 = 1) (s : BitVec 32) :
    ∃ E : ℕ → LCG64Count, (∀ n, n < s.toNat → e.split s (BitVec.ofNat 32 n) = .ok (E n)) ∧
      PooledEquidistributed (gen64 LCG64Count.call) E s.toNat (2 ^ 64 * (2 ^ 61 - 1)) := by
  have hex : ∀ n, ∃ e', n < s.toNat → e.split s (BitVec.ofNat 32 n) = .ok e' ∧ Leapfrog LCG64Count.call e e' s.toNat n := fun n => by
    by_cases hn : n < s.toNat
    · have := s.isLt
      have h2 : (BitVec.ofNat 32 n).toNat = n := by rw [BitVec.toNat_ofNat, Nat.mod_eq_of_lt (by omega)]
      obtain ⟨e', h, hl, -⟩ := C11_count_shift_split_leapfrog e ⟨hc, hi⟩ (by omega) s (BitVec.ofNat 32 n) (by rw [BitVec.lt_def, h2]; exact hn)
      rw [h2] at hl
      exact ⟨e', fun _ => ⟨h, hl⟩⟩
    · exact ⟨e, fun h => absurd h hn⟩
  choose E hE using hex
  have hE0 := C101_lcg64_count_shift e hc hi hi0 ha hb
  have hp := (C92_count_shift_period e hc hi hi0 ha hb).1.2.1
  have hM : (2 ^ 61 - 1 : ℕ) = LCG64Count.M := rfl
  rw [hM] at hE0 hp ⊢
  revert hE0 hp
  generalize 2 ^ 64 * LCG64Count.M = T
  intro hE0 hp
  refine ⟨E, fun n hn => (hE n hn).1, leapfrog_pooled hE0 (fun k => ?_) fun n hn k => ?_⟩
  · rw [gen64_nth, gen64_nth, nth_period hp]
  · rw [gen64_nth, gen64_nth, (hE n hn).2 k]

example : ∃ E : ℕ → LCG64Count, (∀ n, n < 6 → (LCG64Count.ofParam LCG64Count.Default).split 6 (BitVec.ofNat 32 n) = .ok (E n)) ∧
    PooledEquidistributed (gen64 LCG64Count.call) E 6 (2 ^ 64 * (2 ^ 61 - 1)) :=
  C103_lcg64_count_shift_pooled _ (by decide) (by decide) (by decide) (by decide) (by decide) 6

/-- C103, count128_lcg_shift. -/
theorem C103_count128_pooled (e : Count128) (hi : e.P.increment.toNat % 2 = 1) (ha : e.P.a.toNat % 2 = 1) (s : BitVec 32) :
    ∃ E : ℕ → Count128, (∀ n, n < s.toNat → e.split s (BitVec.ofNat 32 n) = .ok (E n)) ∧
      PooledEquidistributed (gen64 Count128.call) E s.toNat (2 ^ 128) := by
  have hex : ∀ n, ∃ e', n < s.toNat → e.split s (BitVec.ofNat 32 n) = .ok e' ∧ Leapfrog Count128.call e e' s.toNat n := fun n => by
    by_cases hn : n < s.toNat
    · have := s.isLt
      have h2 : (BitVec.ofNat 32 n).toNat = n := by rw [BitVec.toNat_ofNat, Nat.mod_eq_of_lt (by omega)]
      obtain ⟨e', h, hl⟩ := C13_count128_split_leapfrog e s (BitVec.ofNat 32 n) (by rw [BitVec.lt_def, h2]; exact hn)
      rw [h2] at hl
      exact ⟨e', fun _ => ⟨h, hl⟩⟩
    · exact ⟨e, fun h => absurd h hn⟩
  choose E hE using hex
  refine ⟨E, fun n hn => (hE n hn).1, leapfrog_pooled (C101_count128 e hi ha) (fun k => ?_) fun n hn k => ?_⟩
  · rw [gen64_nth, gen64_nth, nth_period (C14_count128_period e hi).2.1]
  · rw [gen64_nth, gen64_nth, (hE n hn).2 k]

example : ∃ E : ℕ → Count128, (∀ n, n < 6 → (Count128.ofParam Count128.Default).split 6 (BitVec.ofNat 32 n) = .ok (E n)) ∧
    PooledEquidistributed (gen64 Count128.call) E 6 (2 ^ 128) :=
  C103_count128_pooled _ (by decide +kernel) (by decide +kernel) 6

open MRG in
/-- C103, the mrg and yarn engines. -/
theorem C103_mrg_yarn_pooled (K : Kind) {l : List Int} (hl : l ∈ fullPeriod K) (e : {e : MRG K.order // InRange K.modulus e}) (hu : Uses e.1 l)
    (hz : NonZero e.1) (s : BitVec 32) :
    ∃ E : ℕ → {e : MRG K.order // InRange K.modulus e}, (∀ n, n < s.toNat → split K.modulus e.1 s (BitVec.ofNat 32 n) = .ok (E n).1) ∧
      PooledEquidistributed (mrgGen K) E s.toNat (K.modulus ^ K.order - 1) ∧ PooledEquidistributed (yarnGen K) E s.toNat (K.modulus ^ K.order - 1) := by
  have hex : ∀ n, ∃ e' : {e : MRG K.order // InRange K.modulus e}, n < s.toNat → split K.modulus e.1 s (BitVec.ofNat 32 n) = .ok e'.1 ∧
      Leapfrog (call K.modulus) e.1 e'.1 s.toNat n ∧ Leapfrog (callYarn K.modulus K.gen) e.1 e'.1 s.toNat n := fun n => by
    by_cases hn : n < s.toNat
    · have := s.isLt
      have h2 : (BitVec.ofNat 32 n).toNat = n := by rw [BitVec.toNat_ofNat, Nat.mod_eq_of_lt (by omega)]
      obtain ⟨e', h, hr, hl1, hl2⟩ := C28_mrg_split_leapfrog K e.1 (full_splittable K hl e.2 hu) s (BitVec.ofNat 32 n)
        (by rw [BitVec.lt_def, h2]; exact hn)
      rw [h2] at hl1 hl2
      exact ⟨⟨e', hr⟩, fun _ => ⟨h, hl1, hl2⟩⟩
    · exact ⟨e, fun h => absurd h hn⟩
  choose E hE using hex
  obtain ⟨p1, -, p2, -⟩ := C32_mrg_period_partial K l hl e.1 hu e.2 hz
  refine ⟨E, fun n hn => (hE n hn).1, leapfrog_pooled (mrg_equi K hl e hu hz) (fun k => ?_) fun n hn k => ?_,
    leapfrog_pooled (yarn_equi K hl e hu hz) (fun k => ?_) fun n hn k => ?_⟩
  · rw [mrgGen, sub_nth, sub_nth, nth_period p1.2.1]
  · rw [mrgGen, sub_nth, sub_nth, (hE n hn).2.1 k]
  · rw [yarnGen, sub_nth, sub_nth, nth_period p2.2.1]
  · rw [yarnGen, sub_nth, sub_nth, (hE n hn).2.2 k]

open MRG in
example : ∃ E : ℕ → {e : MRG (Kind.order .k3) // InRange (Kind.modulus .k3) e},
    (∀ n, n < 4 → split (Kind.modulus .k3) (init .k3) 4 (BitVec.ofNat 32 n) = .ok (E n).1) ∧
    PooledEquidistributed (yarnGen .k3) E 4 (Kind.modulus .k3 ^ Kind.order .k3 - 1) := by
  obtain ⟨E, h, -, h2⟩ := C103_mrg_yarn_pooled .k3 (l := [2021422057, 1826992351, 1977753457]) (by decide) ⟨init .k3, init_inRange .k3⟩
    (by intro i; revert i; decide) ⟨⟨1, by decide⟩, by decide⟩ 4
  exact ⟨E, h, h2⟩

end Trng.Props
