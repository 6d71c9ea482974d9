import Verif.Proofs.Cosets
import Verif.Props.HalfPeriod

/-! Property C110: leapfrogging mrg and yarn engines of full period into any number of streams. -/
namespace Trng.Props
open XR Spec Rounded PeriodLaw Trng.Uniform FP Independence Streams HalfPeriod Cosets MRG

variable (K : Kind) {l : List Int}

/-- C110: the engine that `split(s, i)` leaves repeats its numbers after (mⁿ-1)/gcd(s, mⁿ-1) calls. -/
theorem C110_period (hl : l ∈ fullPeriod K) (e : {e : MRG K.order // InRange K.modulus e}) (hu : Uses e.1 l) (hz : NonZero e.1) (s i : BitVec 32) (hi : i < s) :
    ∃ e' : {e : MRG K.order // InRange K.modulus e}, split K.modulus e.1 s i = .ok e'.1 ∧
      ∀ k, nth (call K.modulus) e'.1 (k + (K.modulus ^ K.order - 1) / Nat.gcd s.toNat (K.modulus ^ K.order - 1)) = nth (call K.modulus) e'.1 k := by
  obtain ⟨e1, h1, r1, l1, -⟩ := C28_mrg_split_leapfrog K e.1 (full_splittable K hl e.2 hu) s i hi
  obtain ⟨p1, -, -, -⟩ := C32_mrg_period_partial K l hl e.1 hu e.2 hz
  refine ⟨⟨e1, r1⟩, h1, fun k => ?_⟩
  have hp : ∀ k, nth (call K.modulus) e.1 (k + (K.modulus ^ K.order - 1)) = nth (call K.modulus) e.1 k := fun k => LeapfrogUniform.nth_period p1.2.1 k
  obtain ⟨a, ha⟩ := Nat.gcd_dvd_left s.toNat (K.modulus ^ K.order - 1)
  have hT : (K.modulus ^ K.order - 1) / Nat.gcd s.toNat (K.modulus ^ K.order - 1) * s.toNat = (K.modulus ^ K.order - 1) * a := by
    conv_lhs => rw [ha, ← mul_assoc]
    rw [← ha, Nat.div_mul_cancel (Nat.gcd_dvd_right _ _)]
  rw [l1, l1, add_mul, hT, LeapfrogUniform.nth_mod hp, LeapfrogUniform.nth_mod hp (k * s.toNat + i.toNat),
    show k * s.toNat + (K.modulus ^ K.order - 1) * a + i.toNat = k * s.toNat + i.toNat + (K.modulus ^ K.order - 1) * a by ring, Nat.add_mul_mod_self_left]

/-- C110: any of the s leapfrog streams, whatever s is: over these calls the numbers that d of them return in the same call are independent up to
gcd(s, mⁿ-1)/√(mⁿ⁻ᵈ), if no linear combination of the numbers that the engine itself returns as far apart vanishes modulo m in all calls. -/
theorem C110_split (hl : l ∈ fullPeriod K) (e : {e : MRG K.order // InRange K.modulus e}) (hu : Uses e.1 l) (hz : NonZero e.1)
    (s : BitVec 32) {d : ℕ} (o : Fin d → BitVec 32) (ho : ∀ i, o i < s)
    (hno : ∀ g : Fin d → ℤ, (∀ k, (K.modulus : ℤ) ∣ ∑ i, g i * nth (call K.modulus) e.1 (k + (o i).toNat)) → ∀ i, (K.modulus : ℤ) ∣ g i) :
    ∃ E : Fin d → {e : MRG K.order // InRange K.modulus e}, (∀ i, split K.modulus e.1 s (o i) = .ok (E i).1) ∧
      StreamsNearly (mrgGen K) E ((K.modulus ^ K.order - 1) / Nat.gcd s.toNat (K.modulus ^ K.order - 1))
        ((Nat.gcd s.toNat (K.modulus ^ K.order - 1) : ℝ) / √((K.modulus : ℝ) ^ (K.order - d))) ∧
      StreamsNearly (yarnGen K) E ((K.modulus ^ K.order - 1) / Nat.gcd s.toNat (K.modulus ^ K.order - 1))
        ((Nat.gcd s.toNat (K.modulus ^ K.order - 1) : ℝ) / √((K.modulus : ℝ) ^ (K.order - d))) := by
  have hex : ∀ u : Fin d, ∃ e' : {e : MRG K.order // InRange K.modulus e}, split K.modulus e.1 s (o u) = .ok e'.1 ∧
      Leapfrog (call K.modulus) e.1 e'.1 s.toNat (o u).toNat := fun u => by
    obtain ⟨e1, h1, r1, l1, -⟩ := C28_mrg_split_leapfrog K e.1 (full_splittable K hl e.2 hu) s (o u) (ho u)
    exact ⟨⟨e1, r1⟩, h1, l1⟩
  choose E hE using hex
  have key := leapfrog_every hl e hu hz s.toNat (o := fun i => (o i).toNat) (es := E) (fun u k => by rw [mrgGen, sub_nth, sub_nth, (hE u).2 k]) hno
  exact ⟨E, fun u => (hE u).1, key, yarn_nearly _ key⟩

/-- Equally frequent tuples exclude a linear relation. -/
theorem no_relation_of (hl : l ∈ fullPeriod K) (e : {e : MRG K.order // InRange K.modulus e}) (hu : Uses e.1 l) (hz : NonZero e.1) {d : ℕ} (o : Fin (d + 1) → ℕ)
    (h : StreamsEquidistributed (mrgGen K) (fun i => afterCalls (mrgGen K).call (o i) e) (K.modulus ^ K.order - 1)) (g : Fin (d + 1) → ℤ)
    (hg : ∀ k, (K.modulus : ℤ) ∣ ∑ i, g i * nth (call K.modulus) e.1 (k + o i)) : ∀ i, (K.modulus : ℤ) ∣ g i := by
  refine (C105_mrg K hl _ (fun i => ?_) fun i => ?_).1 h g fun k => ?_
  · rw [mrgGen, sub_after]; exact uses_after hu _
  · rw [mrgGen, sub_after]; exact nonZero_after hl e.2 hu hz _
  · have e2 : ∀ i, nth (call K.modulus) (afterCalls (mrgGen K).call (o i) e).1 k = nth (call K.modulus) e.1 (k + o i) := fun i => by
      rw [mrgGen, sub_after, nth, ← afterCalls_add]
      rfl
    simp only [e2]
    exact hg k

/-- C110: at most n neighbouring streams of an engine with n terms; with d = 1, every stream alone. -/
theorem C110_neighbours (hl : l ∈ fullPeriod K) (e : {e : MRG K.order // InRange K.modulus e}) (hu : Uses e.1 l) (hz : NonZero e.1)
    (s : BitVec 32) {i d : ℕ} (hd : d ≤ K.order) (hi : i + d ≤ s.toNat) :
    ∃ E : Fin d → {e : MRG K.order // InRange K.modulus e}, (∀ u, split K.modulus e.1 s (BitVec.ofNat 32 (i + u.val)) = .ok (E u).1) ∧
      StreamsNearly (mrgGen K) E ((K.modulus ^ K.order - 1) / Nat.gcd s.toNat (K.modulus ^ K.order - 1))
        ((Nat.gcd s.toNat (K.modulus ^ K.order - 1) : ℝ) / √((K.modulus : ℝ) ^ (K.order - d))) ∧
      StreamsNearly (yarnGen K) E ((K.modulus ^ K.order - 1) / Nat.gcd s.toNat (K.modulus ^ K.order - 1))
        ((Nat.gcd s.toNat (K.modulus ^ K.order - 1) : ℝ) / √((K.modulus : ℝ) ^ (K.order - d))) := by
  have hn : ∀ u : Fin d, (BitVec.ofNat 32 (i + u.val)).toNat = i + u.val := fun u => by
    have := s.isLt
    have := u.isLt
    rw [BitVec.toNat_ofNat, Nat.mod_eq_of_lt (by omega)]
  refine C110_split K hl e hu hz s (fun u : Fin d => BitVec.ofNat 32 (i + u.val)) (fun u => ?_) fun g hg => ?_
  · rw [BitVec.lt_def, hn]; have := u.isLt; omega
  · simp only [hn] at hg
    cases d with
    | zero => exact fun u => u.elim0
    | succ d =>
      refine no_relation_of K hl e hu hz (fun u => i + u.val) ?_ g hg
      have h := tuples_streams.1 (C104_mrg_yarn K hl (afterCalls (mrgGen K).call i e) (by rw [mrgGen, sub_after]; exact uses_after hu _)
        (by rw [mrgGen, sub_after]; exact nonZero_after hl e.2 hu hz _) hd).1
      simp only [← afterCalls_add] at h
      simpa only [add_comm] using h

theorem ratio_large (hK : K ≠ .k2) : 2 ^ 32 ≤ (K.modulus ^ K.order - 1) / (K.modulus - 1) := by
  cases K
  · exact absurd rfl hK
  all_goals decide +kernel

theorem no_relation_lag (hK : K ≠ .k2) (hl : l ∈ fullPeriod K) (e : {e : MRG K.order // InRange K.modulus e}) (hu : Uses e.1 l) (hz : NonZero e.1) {a b : ℕ}
    (h0 : a < b) (h1 : b - a < 2 ^ 32) (g : Fin 2 → ℤ) (hg : ∀ k, (K.modulus : ℤ) ∣ ∑ i, g i * nth (call K.modulus) e.1 (k + ![a, b] i)) :
    ∀ i, (K.modulus : ℤ) ∣ g i := by
  have hL : ¬ (K.modulus ^ K.order - 1) / (K.modulus - 1) ∣ b - a := fun h => by
    have := Nat.le_of_dvd (by omega) h
    have := ratio_large K hK
    omega
  refine no_relation_of K hl e hu hz ![a, b] ?_ g hg
  have := (lag_iff K hl (afterCalls (mrgGen K).call a e) (afterCalls (mrgGen K).call b e) (by rw [mrgGen, sub_after]; exact uses_after hu _)
    (by rw [mrgGen, sub_after]; exact nonZero_after hl e.2 hu hz _) (L := b - a)
    (by rw [mrgGen, sub_after, sub_after, ← afterCalls_add, Nat.sub_add_cancel h0.le])).2 hL
  convert this using 1
  funext u
  fin_cases u <;> rfl

/-- C110: any two streams, with more than two terms. -/
theorem C110_pair (hK : K ≠ .k2) (hl : l ∈ fullPeriod K) (e : {e : MRG K.order // InRange K.modulus e}) (hu : Uses e.1 l) (hz : NonZero e.1)
    (s i j : BitVec 32) (hij : i < j) (hj : j < s) :
    ∃ E : Fin 2 → {e : MRG K.order // InRange K.modulus e}, (∀ u, split K.modulus e.1 s (![i, j] u) = .ok (E u).1) ∧
      StreamsNearly (mrgGen K) E ((K.modulus ^ K.order - 1) / Nat.gcd s.toNat (K.modulus ^ K.order - 1))
        ((Nat.gcd s.toNat (K.modulus ^ K.order - 1) : ℝ) / √((K.modulus : ℝ) ^ (K.order - 2))) ∧
      StreamsNearly (yarnGen K) E ((K.modulus ^ K.order - 1) / Nat.gcd s.toNat (K.modulus ^ K.order - 1))
        ((Nat.gcd s.toNat (K.modulus ^ K.order - 1) : ℝ) / √((K.modulus : ℝ) ^ (K.order - 2))) := by
  have hij' := hij
  have hj' := hj
  rw [BitVec.lt_def] at hij' hj'
  refine C110_split K hl e hu hz s ![i, j] (fun u => ?_) fun g hg => ?_
  · fin_cases u
    · exact BitVec.lt_trans hij hj
    · exact hj
  · refine no_relation_lag K hK hl e hu hz hij' (by have := j.isLt; omega) g fun k => ?_
    convert hg k using 4 with u
    fin_cases u <;> rfl

/-- C110: two successive numbers of one stream, with more than two terms. -/
theorem C110_successive (hK : K ≠ .k2) (hl : l ∈ fullPeriod K) (e : {e : MRG K.order // InRange K.modulus e}) (hu : Uses e.1 l) (hz : NonZero e.1)
    (s i : BitVec 32) (hi : i < s) :
    ∃ e' : {e : MRG K.order // InRange K.modulus e}, split K.modulus e.1 s i = .ok e'.1 ∧
      StreamsNearly (mrgGen K) ![e', afterCalls (mrgGen K).call 1 e'] ((K.modulus ^ K.order - 1) / Nat.gcd s.toNat (K.modulus ^ K.order - 1))
        ((Nat.gcd s.toNat (K.modulus ^ K.order - 1) : ℝ) / √((K.modulus : ℝ) ^ (K.order - 2))) ∧
      StreamsNearly (yarnGen K) ![e', afterCalls (mrgGen K).call 1 e'] ((K.modulus ^ K.order - 1) / Nat.gcd s.toNat (K.modulus ^ K.order - 1))
        ((Nat.gcd s.toNat (K.modulus ^ K.order - 1) : ℝ) / √((K.modulus : ℝ) ^ (K.order - 2))) := by
  have hi' := hi
  rw [BitVec.lt_def] at hi'
  obtain ⟨e1, h1, r1, l1, -⟩ := C28_mrg_split_leapfrog K e.1 (full_splittable K hl e.2 hu) s i hi
  have key := leapfrog_every hl e hu hz s.toNat (o := ![i.toNat, s.toNat + i.toNat]) (es := ![⟨e1, r1⟩, afterCalls (mrgGen K).call 1 ⟨e1, r1⟩])
    (by
      rw [Fin.forall_fin_two]
      constructor <;> intro k
      · show nth (mrgGen K).call ⟨e1, r1⟩ k = _
        rw [mrgGen, sub_nth, sub_nth]; exact congrArg _ (l1 k)
      · show nth (mrgGen K).call (afterCalls (mrgGen K).call 1 ⟨e1, r1⟩) k = _
        rw [nth, ← afterCalls_add, ← nth, mrgGen, sub_nth, sub_nth, l1, add_mul, one_mul, add_assoc]
        rfl)
    (no_relation_lag K hK hl e hu hz (by omega) (by have := s.isLt; omega))
  exact ⟨⟨e1, r1⟩, h1, key, yarn_nearly _ key⟩

/-- C110: at most n successive numbers of one of fewer than m streams. -/
theorem C110_successive_all (hl : l ∈ fullPeriod K) (e : {e : MRG K.order // InRange K.modulus e}) (hu : Uses e.1 l) (hz : NonZero e.1)
    (s i : BitVec 32) (hs : s.toNat < K.modulus) (hi : i < s) {d : ℕ} (hd : d ≤ K.order) :
    ∃ e' : {e : MRG K.order // InRange K.modulus e}, split K.modulus e.1 s i = .ok e'.1 ∧
      StreamsNearly (mrgGen K) (fun u : Fin d => afterCalls (mrgGen K).call u.val e') ((K.modulus ^ K.order - 1) / Nat.gcd s.toNat (K.modulus ^ K.order - 1))
        ((Nat.gcd s.toNat (K.modulus ^ K.order - 1) : ℝ) / √((K.modulus : ℝ) ^ (K.order - d))) ∧
      StreamsNearly (yarnGen K) (fun u : Fin d => afterCalls (mrgGen K).call u.val e') ((K.modulus ^ K.order - 1) / Nat.gcd s.toNat (K.modulus ^ K.order - 1))
        ((Nat.gcd s.toNat (K.modulus ^ K.order - 1) : ℝ) / √((K.modulus : ℝ) ^ (K.order - d))) := by
  have hi' := hi
  rw [BitVec.lt_def] at hi'
  obtain ⟨e1, h1, r1, l1, -⟩ := C28_mrg_split_leapfrog K e.1 (full_splittable K hl e.2 hu) s i hi
  have key := leapfrog_every hl e hu hz s.toNat (o := fun u : Fin d => i.toNat + s.toNat * u.val)
    (es := fun u => afterCalls (mrgGen K).call u.val ⟨e1, r1⟩)
    (fun u k => by
      rw [nth, ← afterCalls_add, ← nth, mrgGen, sub_nth, sub_nth, l1]
      congr 2
      ring)
    (no_relation_leap hl e hu hz (by omega) hs hd i.toNat)
  exact ⟨⟨e1, r1⟩, h1, key, yarn_nearly _ key⟩

/-- Stream 3 of 1000 of the default mrg4: pairs of successive numbers. -/
example : ∃ e' : {e : MRG (Kind.order .k4) // InRange (Kind.modulus .k4) e}, split (Kind.modulus .k4) (init .k4) 1000 3 = .ok e'.1 ∧
    StreamsNearly (mrgGen .k4) (fun u : Fin 2 => afterCalls (mrgGen .k4).call u.val e') ((Kind.modulus .k4 ^ Kind.order .k4 - 1) / 40)
      ((40 : ℕ) / √((Kind.modulus .k4 : ℝ) ^ (Kind.order .k4 - 2))) := by
  obtain ⟨e', h, h1, -⟩ := C110_successive_all .k4 (l := [2001982722, 1412284257, 1155380217, 1668339922]) (by decide) ⟨init .k4, init_inRange .k4⟩
    (by intro i; revert i; decide) ⟨⟨1, by decide⟩, by decide⟩ 1000 3 (by decide) (by decide) (d := 2) (by decide)
  rw [show Nat.gcd (1000 : BitVec 32).toNat (Kind.modulus .k4 ^ Kind.order .k4 - 1) = 40 by decide +kernel] at h1
  exact ⟨e', h, h1⟩

/-- Four streams of the default yarn5 with their greatest common divisor: exponential samples with the first three of them. -/
example : ∃ E : Fin 3 → {e : MRG (Kind.order .k5) // InRange (Kind.modulus .k5) e},
    (∀ u, split (Kind.modulus .k5) (init .k5) 4 (BitVec.ofNat 32 (0 + u.val)) = .ok (E u).1) ∧
    StreamsFollow (sampleOC (exponential doubleMachine (fin 3)) (yarnGen .k5)) E ((Kind.modulus .k5 ^ Kind.order .k5 - 1) / 2) (exponentialLaw 3)
      ((3 : ℕ) * (1e-13 + 14 / ((yarnGen .k5).max - (yarnGen .k5).min : ℝ)) + (2 : ℕ) / √((Kind.modulus .k5 : ℝ) ^ (Kind.order .k5 - 3))) := by
  obtain ⟨E, h, -, h1⟩ := C110_neighbours .k5 (l := [107374182, 0, 0, 0, 104480]) (by decide) ⟨init .k5, init_inRange .k5⟩
    (by intro i; revert i; decide) ⟨⟨1, by decide⟩, by decide⟩ 4 (i := 0) (d := 3) (by decide) (by decide)
  rw [show Nat.gcd (4 : BitVec 32).toNat (Kind.modulus .k5 ^ Kind.order .k5 - 1) = 2 by decide +kernel] at h1
  exact ⟨E, h, C106_exponential C100_machine (by norm_num) (yarn_sound .k5) h1 (by norm_num) (by norm_num)⟩

end Trng.Props
