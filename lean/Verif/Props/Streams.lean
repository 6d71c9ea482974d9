import Verif.Proofs.Streams
import Verif.Props.Independence

/-! Property C105: the streams of a parallel program are independent of each other over a period, except for linear relations. -/
namespace Trng.Props
open XR Spec Rounded PeriodLaw Trng.Uniform FP Trng.Discrete Independence Streams

/-! ### The engines -/

section
open MRG
variable (K : Kind) {l : List Int}

/-- C105, any engines mrg of one kind with a parameter set of full period: they are independent of each other, that is over a period every tuple of
numbers that they return in the same call is equally frequent, if and only if no linear combination of their numbers vanishes modulo m in all calls. -/
theorem C105_mrg (hl : l ∈ fullPeriod K) {d : ℕ} (es : Fin (d + 1) → {e : MRG K.order // InRange K.modulus e})
    (hu : ∀ i, Uses (es i).1 l) (hz : ∀ i, NonZero (es i).1) :
    StreamsEquidistributed (mrgGen K) es (K.modulus ^ K.order - 1) ↔
      ∀ g : Fin (d + 1) → ℤ, (∀ k, (K.modulus : ℤ) ∣ ∑ i, g i * nth (call K.modulus) (es i).1 k) → ∀ i, (K.modulus : ℤ) ∣ g i :=
  streams_iff K hl es hu hz

/-- C105: yarn engines are independent of each other if and only if mrg engines with the same states are. -/
theorem C105_yarn {d T : ℕ} (es : Fin d → {e : MRG K.order // InRange K.modulus e}) :
    StreamsEquidistributed (yarnGen K) es T ↔ StreamsEquidistributed (mrgGen K) es T := yarn_streams_iff K es

/-- C105: two engines are independent if and only if the state of the one is not a multiple modulo m of the state of the other. -/
theorem C105_pair (hl : l ∈ fullPeriod K) (e e' : {e : MRG K.order // InRange K.modulus e})
    (hu : Uses e.1 l) (hz : NonZero e.1) (hu' : Uses e'.1 l) (hz' : NonZero e'.1) :
    StreamsEquidistributed (mrgGen K) ![e, e'] (K.modulus ^ K.order - 1) ↔ ¬ ∃ g : ℤ, ∀ i, (K.modulus : ℤ) ∣ e'.1.r i - g * e.1.r i := by
  rw [pair_iff K hl e e' hu hz hu' hz', cast_prop]

/-- C105: two engines seeded with numbers that differ modulo m are independent. -/
theorem C105_seed (hl : l ∈ fullPeriod K) (e : MRG K.order) (hr : InRange K.modulus e) (hu : Uses e l) (s s' : BitVec 64)
    (h : s.toInt % K.modulus ≠ s'.toInt % K.modulus) :
    ∃ e1 e2 : {e : MRG K.order // InRange K.modulus e}, e1.1 = e.seed K.modulus s ∧ e2.1 = e.seed K.modulus s' ∧
      StreamsEquidistributed (mrgGen K) ![e1, e2] (K.modulus ^ K.order - 1) ∧ StreamsEquidistributed (yarnGen K) ![e1, e2] (K.modulus ^ K.order - 1) := by
  obtain ⟨r1, z1, -⟩ := C31_mrg_seed_range K e hr s (fun _ => 0) (fun _ => 0)
  obtain ⟨r2, z2, -⟩ := C31_mrg_seed_range K e hr s' (fun _ => 0) (fun _ => 0)
  have key : StreamsEquidistributed (mrgGen K) ![⟨_, r1⟩, ⟨_, r2⟩] (K.modulus ^ K.order - 1) := by
    rw [C105_pair K hl ⟨_, r1⟩ ⟨_, r2⟩ hu z1 hu z2]
    rintro ⟨g, hg⟩
    have hn : 1 < K.order := by cases K <;> decide
    have h1 : (⟨1, hn⟩ : Fin K.order) ≠ 0 := by
      intro hc; have := congrArg Fin.val hc; simp at this
    have e1 := hg ⟨1, hn⟩
    have e0 := hg 0
    simp only [(C31_mrg_seed_residue K e s (fun _ => 0) _).2.1 h1, (C31_mrg_seed_residue K e s' (fun _ => 0) _).2.1 h1] at e1
    simp only [(C31_mrg_seed_residue K e s (fun _ => 0) 0).1, (C31_mrg_seed_residue K e s' (fun _ => 0) 0).1] at e0
    have e2 : (K.modulus : ℤ) ∣ s'.toInt % K.modulus - s.toInt % K.modulus := by
      have := dvd_sub e0 (Dvd.dvd.mul_right e1 (s.toInt % K.modulus))
      rwa [show s'.toInt % K.modulus - g * (s.toInt % K.modulus) - (1 - g * 1) * (s.toInt % K.modulus) = s'.toInt % K.modulus - s.toInt % K.modulus by ring] at this
    have := Int.emod_eq_emod_iff_emod_sub_eq_zero.2 (Int.emod_eq_zero_of_dvd e2)
    rw [Int.emod_emod_of_dvd _ (dvd_refl _), Int.emod_emod_of_dvd _ (dvd_refl _)] at this
    exact h this.symm
  exact ⟨⟨_, r1⟩, ⟨_, r2⟩, rfl, rfl, key, (C105_yarn K _).2 key⟩

/-- The default mrg3 seeded with 1 and 2. -/
example : ∃ e1 e2 : {e : MRG (Kind.order .k3) // InRange (Kind.modulus .k3) e},
    e1.1 = (init .k3).seed (Kind.modulus .k3) 1 ∧ e2.1 = (init .k3).seed (Kind.modulus .k3) 2 ∧
    StreamsEquidistributed (yarnGen .k3) ![e1, e2] (Kind.modulus .k3 ^ Kind.order .k3 - 1) := by
  obtain ⟨e1, e2, a, b, -, c⟩ := C105_seed .k3 (l := [2021422057, 1826992351, 1977753457]) (by decide) (init .k3) (init_inRange .k3)
    (by intro i; revert i; decide) 1 2 (by decide)
  exact ⟨e1, e2, a, b, c⟩

/-- C105: three seeded engines are not: for every kind of mrg, every parameter set and all seeds s₀, s₁, s₂ the numbers of three seeded engines satisfy
(s₁ - s₂) x + (s₂ - s₀) y + (s₀ - s₁) z = 0 modulo m in every call; with the seeds 0, 1, 2 the third is twice the second minus the first. -/
theorem C105_seed_relation (e : MRG K.order) (hr : InRange K.modulus e) (s : Fin 3 → BitVec 64) (k : ℕ) :
    (K.modulus : ℤ) ∣ ((s 1).toInt - (s 2).toInt) * nth (call K.modulus) (e.seed K.modulus (s 0)) k +
      ((s 2).toInt - (s 0).toInt) * nth (call K.modulus) (e.seed K.modulus (s 1)) k +
      ((s 0).toInt - (s 1).toInt) * nth (call K.modulus) (e.seed K.modulus (s 2)) k := by
  have hx : ∀ i, ((nth (call K.modulus) (e.seed K.modulus (s i)) k : Int) : ZMod K.modulus) =
      (Matrix.mulVec (comp K.modulus e.a ^ (k + 1)) (castV K.modulus (e.seed K.modulus (s i)).r)) 0 := fun i => by
    rw [nth_call, show e.a = (e.seed K.modulus (s i)).a from rfl, ← castV_iterate (isEngineModulus K) (order_le K)
      (valid_iff.1 (C31_mrg_seed_range K e hr (s i) (fun _ => 0) (fun _ => 0)).1)]; rfl
  have hs : ∀ i j, castV K.modulus (e.seed K.modulus (s i)).r j = if j = 0 then ((s i).toInt : ZMod K.modulus) else 1 := fun i j => by
    have := C31_mrg_seed_residue K e (s i) (fun _ => 0) j
    rw [castV]
    split_ifs with hj
    · rw [hj, this.1, ZMod.intCast_mod]
    · rw [this.2.1 hj, Int.cast_one]
  rw [← ZMod.intCast_zmod_eq_zero_iff_dvd]
  push_cast
  have hlin : ∀ (A : Matrix (Fin K.order) (Fin K.order) (ZMod K.modulus)) (a b c : ZMod K.modulus) (x y z : Fin K.order → ZMod K.modulus),
      a * A.mulVec x 0 + b * A.mulVec y 0 + c * A.mulVec z 0 = A.mulVec (a • x + b • y + c • z) 0 := fun A a b c x y z => by
    simp only [Matrix.mulVec_add, Matrix.mulVec_smul, Pi.add_apply, Pi.smul_apply, smul_eq_mul]
  rw [hx, hx, hx, hlin]
  refine (congrFun (congrArg (Matrix.mulVec _) (funext fun j => ?_)) 0).trans (congrFun (Matrix.mulVec_zero _) 0)
  simp only [Pi.add_apply, Pi.smul_apply, smul_eq_mul, hs, Pi.zero_apply]
  split_ifs <;> ring

/-- C105: hence no three seeded engines are independent. -/
theorem C105_seed_wrong (hl : l ∈ fullPeriod K) (e : MRG K.order) (hr : InRange K.modulus e) (hu : Uses e l) (s : Fin 3 → BitVec 64)
    (es : Fin 3 → {e : MRG K.order // InRange K.modulus e}) (he : ∀ i, (es i).1 = e.seed K.modulus (s i)) :
    ¬ StreamsEquidistributed (mrgGen K) es (K.modulus ^ K.order - 1) ∧ ¬ StreamsEquidistributed (yarnGen K) es (K.modulus ^ K.order - 1) := by
  rw [C105_yarn K es, and_self, C105_mrg K hl es (fun i => by rw [he]; exact hu)
    (fun i => by rw [he]; exact (C31_mrg_seed_range K e hr (s i) (fun _ => 0) (fun _ => 0)).2.1)]
  intro h
  have h1 := h ![(s 1).toInt - (s 2).toInt, (s 2).toInt - (s 0).toInt, (s 0).toInt - (s 1).toInt] (fun k => by
    rw [Fin.sum_univ_three, he, he, he]; exact C105_seed_relation K e hr s k) 2
  change (K.modulus : ℤ) ∣ (s 0).toInt - (s 1).toInt at h1
  have heq : (es 0).1 = (es 1).1 := by
    rw [he, he]
    have hm : (s 0).toInt % K.modulus = (s 1).toInt % K.modulus := Int.emod_eq_emod_iff_emod_sub_eq_zero.2 (Int.emod_eq_zero_of_dvd h1)
    have hr : (e.seed K.modulus (s 0)).r = (e.seed K.modulus (s 1)).r := funext fun j => by
      by_cases hj : j = 0
      · rw [hj, (C31_mrg_seed_residue K e (s 0) (fun _ => 0) 0).1, (C31_mrg_seed_residue K e (s 1) (fun _ => 0) 0).1, hm]
      · rw [(C31_mrg_seed_residue K e (s 0) (fun _ => 0) j).2.1 hj, (C31_mrg_seed_residue K e (s 1) (fun _ => 0) j).2.1 hj]
    exact congrArg (fun r => (⟨e.a, r⟩ : MRG K.order)) hr
  have h2 := h ![1, -1, 0] (fun k => by
    rw [Fin.sum_univ_three, heq]
    simp) 0
  have := Int.le_of_dvd (by decide) h2
  have := two_lt K
  simp only [Matrix.cons_val_zero] at *
  omega

/-- Engines mrg3 seeded with 0, 1 and 2: the numbers of the third are those of the second twice, minus those of the first. -/
example (k : ℕ) : (2147483647 : ℤ) ∣ nth (call 2147483647) ((init .k3).seed 2147483647 2) k -
    (2 * nth (call 2147483647) ((init .k3).seed 2147483647 1) k - nth (call 2147483647) ((init .k3).seed 2147483647 0) k) := by
  have h : (2147483647 : ℤ) ∣ ((1 : ℤ) - 2) * nth (call 2147483647) ((init .k3).seed 2147483647 0) k + (2 - 0) * nth (call 2147483647) ((init .k3).seed 2147483647 1) k +
      (0 - 1) * nth (call 2147483647) ((init .k3).seed 2147483647 2) k := C105_seed_relation .k3 (init .k3) (init_inRange .k3) ![0, 1, 2] k
  obtain ⟨c, hc⟩ := h
  exact ⟨-c, by rw [mul_neg, ← hc]; ring⟩

/-- C105: an engine and the same engine `s` calls later, as `jump(s)` and `discard(s)` leave it, are independent if and only if s is not a multiple of
(mⁿ - 1)/(m - 1). -/
theorem C105_jump (hl : l ∈ fullPeriod K) (e : {e : MRG K.order // InRange K.modulus e}) (hu : Uses e.1 l) (hz : NonZero e.1) (s : BitVec 64) :
    ∃ e' : {e : MRG K.order // InRange K.modulus e}, e'.1 = e.1.jump K.modulus s ∧
      (StreamsEquidistributed (mrgGen K) ![e, e'] (K.modulus ^ K.order - 1) ↔ ¬ (K.modulus ^ K.order - 1) / (K.modulus - 1) ∣ s.toNat) ∧
      (StreamsEquidistributed (yarnGen K) ![e, e'] (K.modulus ^ K.order - 1) ↔ ¬ (K.modulus ^ K.order - 1) / (K.modulus - 1) ∣ s.toNat) := by
  refine ⟨afterCalls (mrgGen K).call s.toNat e, ?_, ?_⟩
  · rw [mrgGen, sub_after, (C27_mrg_discard K e.1 e.2 s).2.2, (C27_mrg_discard K e.1 e.2 s).1]
  · rw [C105_yarn K, and_self]
    exact lag_iff K hl e _ hu hz (by rw [mrgGen, sub_after])

/-- C105: `jump2(s)`. -/
theorem C105_jump2 (hl : l ∈ fullPeriod K) (e : {e : MRG K.order // InRange K.modulus e}) (hu : Uses e.1 l) (hz : NonZero e.1) (s : BitVec 32) :
    ∃ e' : {e : MRG K.order // InRange K.modulus e}, e'.1 = e.1.jump2 K.modulus s ∧
      (StreamsEquidistributed (mrgGen K) ![e, e'] (K.modulus ^ K.order - 1) ↔ ¬ (K = .k2 ∧ 31 ≤ s.toNat)) ∧
      (StreamsEquidistributed (yarnGen K) ![e, e'] (K.modulus ^ K.order - 1) ↔ ¬ (K = .k2 ∧ 31 ≤ s.toNat)) := by
  refine ⟨afterCalls (mrgGen K).call (2 ^ s.toNat) e, ?_, ?_⟩
  · rw [mrgGen, sub_after, (C27_mrg_jump2 K e.1 e.2 s).1]
  · rw [C105_yarn K, and_self, lag_iff K hl e _ hu hz (by rw [mrgGen, sub_after])]
    refine not_congr ⟨fun h => ?_, ?_⟩
    · have key : ∀ K : Kind, K ≠ .k2 → ¬ (K.modulus ^ K.order - 1) / (K.modulus - 1) ∣ 2 ^ s.toNat := fun K hK =>
        not_dvd_two_pow (t := (K.modulus ^ K.order - 1) / (K.modulus - 1) / (if K = .k4 then 2 ^ 32 else 1))
          (by cases K <;> first | exact absurd rfl hK | decide +kernel) (by cases K <;> first | exact absurd rfl hK | decide +kernel)
          (by cases K <;> first | exact absurd rfl hK | decide +kernel) s.toNat
      by_cases hK : K = .k2
      · subst hK
        refine ⟨rfl, ?_⟩
        rw [show (Kind.modulus .k2 ^ Kind.order .k2 - 1) / (Kind.modulus .k2 - 1) = 2 ^ 31 by decide +kernel] at h
        exact (Nat.pow_dvd_pow_iff_le_right' (b := 0)).1 h
      · exact absurd h (key K hK)
    · rintro ⟨rfl, h⟩
      rw [show (Kind.modulus .k2 ^ Kind.order .k2 - 1) / (Kind.modulus .k2 - 1) = 2 ^ 31 by decide +kernel]
      exact pow_dvd_pow 2 h

/-- C105: with more than three terms any `jump(s)`, s > 0, gives independent engines. -/
theorem C105_jump_any (hK : 4 ≤ K.order) (hl : l ∈ fullPeriod K) (e : {e : MRG K.order // InRange K.modulus e}) (hu : Uses e.1 l) (hz : NonZero e.1)
    (s : BitVec 64) (hs : s ≠ 0) :
    ∃ e' : {e : MRG K.order // InRange K.modulus e}, e'.1 = e.1.jump K.modulus s ∧
      StreamsEquidistributed (mrgGen K) ![e, e'] (K.modulus ^ K.order - 1) ∧ StreamsEquidistributed (yarnGen K) ![e, e'] (K.modulus ^ K.order - 1) := by
  obtain ⟨e', h, h1, h2⟩ := C105_jump K hl e hu hz s
  have h0 : 0 < s.toNat := Nat.pos_of_ne_zero fun h => hs (BitVec.eq_of_toNat_eq h)
  have hq : 2 ^ 64 ≤ (K.modulus ^ K.order - 1) / (K.modulus - 1) := by
    cases K
    · exact absurd hK (by decide)
    · exact absurd hK (by decide)
    · exact absurd hK (by decide)
    all_goals decide +kernel
  have hd : ¬ (K.modulus ^ K.order - 1) / (K.modulus - 1) ∣ s.toNat := fun h => by
    have := Nat.le_of_dvd h0 h
    have := s.isLt
    omega
  exact ⟨e', h, h1.2 hd, h2.2 hd⟩

/-- C105: where `jump(s)` does not give independent engines, it gives engines whose numbers are those of the old engine times a constant, modulo m. -/
theorem C105_jump_wrong (hl : l ∈ fullPeriod K) (e : MRG K.order) (hr : InRange K.modulus e) (hu : Uses e l) (hz : NonZero e) (s : BitVec 64)
    (hs : (K.modulus ^ K.order - 1) / (K.modulus - 1) ∣ s.toNat) :
    ∃ g : ℤ, ∀ k, nth (call K.modulus) (e.jump K.modulus s) k = g * nth (call K.modulus) e k % K.modulus :=
  lag_proportional K hl hr hu hz (by rw [(C27_mrg_discard K e hr s).2.2, (C27_mrg_discard K e hr s).1]) hs

/-- C105: with mrg2 and yarn2 this happens for `jump2(s)`, s ≥ 31. -/
theorem C105_jump2_wrong (hl : l ∈ fullPeriod .k2) (e : MRG 2) (hr : InRange (Kind.modulus .k2) e) (hu : Uses e l) (hz : NonZero e) (s : BitVec 32) (hs : 31 ≤ s.toNat) :
    ∃ g : ℤ, ∀ k, nth (call 2147483647) (e.jump2 2147483647 s) k = g * nth (call 2147483647) e k % 2147483647 := by
  refine lag_proportional .k2 hl hr hu hz (C27_mrg_jump2 .k2 e hr s).1 ?_
  rw [show (Kind.modulus .k2 ^ Kind.order .k2 - 1) / (Kind.modulus .k2 - 1) = 2 ^ 31 by decide +kernel]
  exact pow_dvd_pow 2 hs

/-- The default mrg2: the constant is m - 1160990996. -/
example : ∀ i, ((init .k2).jump2 2147483647 31).r i = 986492651 * (init .k2).r i % 2147483647 := by
  decide +kernel

/-- C105: leapfrogging with a number of streams that has no divisor in common with the period: streams i and j are independent if j - i is not a multiple of
(mⁿ - 1)/(m - 1); with more than two terms, always. -/
theorem C105_split (hl : l ∈ fullPeriod K) (e : {e : MRG K.order // InRange K.modulus e}) (hu : Uses e.1 l) (hz : NonZero e.1)
    (s i j : BitVec 32) (hs : Nat.Coprime s.toNat (K.modulus ^ K.order - 1)) (hij : i < j) (hj : j < s) (hq : K ≠ .k2 ∨ j.toNat - i.toNat ≠ 2 ^ 31) :
    ∃ e1 e2 : {e : MRG K.order // InRange K.modulus e}, split K.modulus e.1 s i = .ok e1.1 ∧ split K.modulus e.1 s j = .ok e2.1 ∧
      StreamsEquidistributed (mrgGen K) ![e1, e2] (K.modulus ^ K.order - 1) ∧ StreamsEquidistributed (yarnGen K) ![e1, e2] (K.modulus ^ K.order - 1) := by
  have hij' := hij; have hj' := hj
  rw [BitVec.lt_def] at hij' hj'
  obtain ⟨e1, h1, r1, l1, -⟩ := C28_mrg_split_leapfrog K e.1 (full_splittable K hl e.2 hu) s i (BitVec.lt_trans hij hj)
  obtain ⟨e2, h2, r2, l2, -⟩ := C28_mrg_split_leapfrog K e.1 (full_splittable K hl e.2 hu) s j hj
  obtain ⟨p1, -, -, -⟩ := C32_mrg_period_partial K l hl e.1 hu e.2 hz
  have hL : ¬ (K.modulus ^ K.order - 1) / (K.modulus - 1) ∣ j.toNat - i.toNat := fun h => by
    have hle := Nat.le_of_dvd (by omega) h
    have := j.isLt
    by_cases hK : K = .k2
    · subst hK
      rw [show (Kind.modulus .k2 ^ Kind.order .k2 - 1) / (Kind.modulus .k2 - 1) = 2 ^ 31 by decide +kernel] at h
      obtain ⟨c, hc⟩ := h
      have := hq.resolve_left (by simp)
      omega
    · have : 2 ^ 32 ≤ (K.modulus ^ K.order - 1) / (K.modulus - 1) := by
        cases K
        · exact absurd rfl hK
        all_goals decide +kernel
      omega
  have key : StreamsEquidistributed (mrgGen K) ![⟨e1, r1⟩, ⟨e2, r2⟩] (K.modulus ^ K.order - 1) := by
    refine leapfrog_streams (e := e) (s := s.toNat) (o := ![i.toNat, j.toNat]) ?_ (fun k => ?_) hs (fun u => ?_)
    · have := (lag_iff K hl (afterCalls (mrgGen K).call i.toNat e) (afterCalls (mrgGen K).call j.toNat e) (by rw [mrgGen, sub_after]; exact uses_after hu _)
        (by rw [mrgGen, sub_after]; exact nonZero_after hl e.2 hu hz _) (L := j.toNat - i.toNat)
        (by rw [mrgGen, sub_after, sub_after, ← afterCalls_add, Nat.sub_add_cancel hij'.le])).2 hL
      convert this using 1
      funext u
      fin_cases u <;> rfl
    · rw [mrgGen, sub_nth, sub_nth, LeapfrogUniform.nth_period p1.2.1]
    · revert u
      rw [Fin.forall_fin_two]
      constructor <;> intro k
      · show nth (mrgGen K).call ⟨e1, r1⟩ k = _
        rw [mrgGen, sub_nth, sub_nth]; exact congrArg _ (l1 k)
      · show nth (mrgGen K).call ⟨e2, r2⟩ k = _
        rw [mrgGen, sub_nth, sub_nth]; exact congrArg _ (l2 k)
  exact ⟨⟨e1, r1⟩, ⟨e2, r2⟩, h1, h2, key, (C105_yarn K _).2 key⟩

/-- Streams 1 and 4 of five of the default yarn3. -/
example : ∃ e1 e2 : {e : MRG (Kind.order .k3) // InRange (Kind.modulus .k3) e},
    split (Kind.modulus .k3) (init .k3) 5 1 = .ok e1.1 ∧ split (Kind.modulus .k3) (init .k3) 5 4 = .ok e2.1 ∧
    StreamsEquidistributed (yarnGen .k3) ![e1, e2] (Kind.modulus .k3 ^ Kind.order .k3 - 1) := by
  obtain ⟨e1, e2, a, b, -, c⟩ := C105_split .k3 (l := [2021422057, 1826992351, 1977753457]) (by decide) ⟨init .k3, init_inRange .k3⟩
    (by intro i; revert i; decide) ⟨⟨1, by decide⟩, by decide⟩ 5 1 4 (by decide +kernel) (by decide) (by decide) (Or.inl (by decide))
  exact ⟨e1, e2, a, b, c⟩

/-- C105: any n neighbouring leapfrog streams of an engine with n terms are independent of each other, all together. -/
theorem C105_split_neighbours (hl : l ∈ fullPeriod K) (e : {e : MRG K.order // InRange K.modulus e}) (hu : Uses e.1 l) (hz : NonZero e.1)
    (s : BitVec 32) (hs : Nat.Coprime s.toNat (K.modulus ^ K.order - 1)) {i d : ℕ} (hd : d ≤ K.order) (hi : i + d ≤ s.toNat) :
    ∃ E : Fin d → {e : MRG K.order // InRange K.modulus e}, (∀ u, split K.modulus e.1 s (BitVec.ofNat 32 (i + u.val)) = .ok (E u).1) ∧
      StreamsEquidistributed (mrgGen K) E (K.modulus ^ K.order - 1) ∧ StreamsEquidistributed (yarnGen K) E (K.modulus ^ K.order - 1) := by
  have hn : ∀ u : Fin d, (BitVec.ofNat 32 (i + u.val)).toNat = i + u.val := fun u => by
    have := s.isLt
    have := u.isLt
    rw [BitVec.toNat_ofNat, Nat.mod_eq_of_lt (by omega)]
  have hex : ∀ u : Fin d, ∃ e' : {e : MRG K.order // InRange K.modulus e}, split K.modulus e.1 s (BitVec.ofNat 32 (i + u.val)) = .ok e'.1 ∧
      Leapfrog (call K.modulus) e.1 e'.1 s.toNat (i + u.val) := fun u => by
    obtain ⟨e1, h1, r1, l1, -⟩ := C28_mrg_split_leapfrog K e.1 (full_splittable K hl e.2 hu) s (BitVec.ofNat 32 (i + u.val))
      (by rw [BitVec.lt_def, hn]; have := u.isLt; omega)
    rw [hn] at l1
    exact ⟨⟨e1, r1⟩, h1, l1⟩
  choose E hE using hex
  obtain ⟨p1, -, -, -⟩ := C32_mrg_period_partial K l hl e.1 hu e.2 hz
  have key : StreamsEquidistributed (mrgGen K) E (K.modulus ^ K.order - 1) := by
    refine leapfrog_streams (e := e) (s := s.toNat) (o := fun u => i + u.val) ?_ (fun k => ?_) hs (fun u k => ?_)
    · have h := tuples_streams.1 (C104_mrg_yarn K hl (afterCalls (mrgGen K).call i e) (by rw [mrgGen, sub_after]; exact uses_after hu _)
        (by rw [mrgGen, sub_after]; exact nonZero_after hl e.2 hu hz _) hd).1
      simp only [← afterCalls_add] at h
      simpa only [add_comm] using h
    · rw [mrgGen, sub_nth, sub_nth, LeapfrogUniform.nth_period p1.2.1]
    · rw [mrgGen, sub_nth, sub_nth, (hE u).2 k]
  exact ⟨E, fun u => (hE u).1, key, (C105_yarn K _).2 key⟩

end

/-! ### The distributions -/

variable {σ : Type} {M : Machine} {d : ℝ} {G : Gen σ} {T n : ℕ} {es : Fin n → σ}

/-- C105, exponential_dist<double>: over a period of n independent engines, with `double` arithmetic and a C library of relative error at most 2⁻⁵⁰, every
sample is a number, and for all t_0, ..., t_(n-1) the fraction of the calls in which the samples with the engines are at most t_0, ..., t_(n-1) is the
product of the probabilities, up to n times the sum of 1e-13 and 14 divided by the length of the engine's range, and 1/T. -/
theorem C105_exponential (D : DoubleWithin M d) (hd : d ≤ 2 ^ (-50 : ℤ)) (hG : G.Sound) (hT : StreamsEquidistributed G es T) {mu : ℝ}
    (h0 : 1e-200 ≤ mu) (h1 : mu ≤ 1e200) :
    StreamsFollow (sampleOC (exponential M (fin mu)) G) es T (exponentialLaw mu) (n * (1e-13 + 14 / (G.max - G.min : ℝ)) + 1 / T) := by
  have hm : 0 < mu := lt_of_lt_of_le (by norm_num) h0
  exact streams_of (S := fun _ G => sampleOC (exponential M (fin mu)) G) (one_oc fun u => (exponential M (fin mu)).draw (fin (u : ℝ))) hG hT (exponential_law hm).2 fun h =>
    C101_exponential D hd (counter_sound hG) h h0 h1

/-- C105, twosided_exponential_dist<double>. -/
theorem C105_twosided (D : DoubleWithin M d) (hd : d ≤ 2 ^ (-50 : ℤ)) (hG : G.Sound) (hl : (G.min, G.max) ∈ libraryRanges) (hT : StreamsEquidistributed G es T)
    {mu : ℝ} (h0 : 1e-200 ≤ mu) (h1 : mu ≤ 1e200) :
    StreamsFollow (sampleOO (twosidedExponential M (fin mu)) G) es T (twosidedLaw mu) (n * (1e-13 + 14 / (G.max - G.min : ℝ)) + 1 / T) := by
  have hm : 0 < mu := lt_of_lt_of_le (by norm_num) h0
  exact streams_of (S := fun _ G => sampleOO (twosidedExponential M (fin mu)) G) (one_oo fun u => (twosidedExponential M (fin mu)).draw (fin (u : ℝ))) hG hT (twosided_law hm).2 fun h =>
    C101_twosided D hd (counter_sound hG) hl h h0 h1

/-- C105, logistic_dist<double>: the rounding of the shift by `eta` adds an error proportional to `eta/theta`. -/
theorem C105_logistic (D : DoubleWithin M d) (hd : d ≤ 2 ^ (-50 : ℤ)) (hG : G.Sound) (hl : (G.min, G.max) ∈ libraryRanges) (hT : StreamsEquidistributed G es T)
    {theta eta : ℝ} (h0 : 1e-200 ≤ theta) (h1 : theta ≤ 1e200) (he : |eta| ≤ 1e200) :
    StreamsFollow (sampleOO (logistic M (fin theta) (fin eta)) G) es T (logisticLaw theta eta) (n * (1e-13 + 1.2e-16 * (|eta| / theta) + 14 / (G.max - G.min : ℝ)) + 1 / T) := by
  have hm : 0 < theta := lt_of_lt_of_le (by norm_num) h0
  exact streams_of (S := fun _ G => sampleOO (logistic M (fin theta) (fin eta)) G) (one_oo fun u => (logistic M (fin theta) (fin eta)).draw (fin (u : ℝ))) hG hT (logistic_law hm).2 fun h =>
    C101_logistic D hd (counter_sound hG) hl h h0 h1 he

/-- C105, extreme_value_dist<double>. -/
theorem C105_extreme_value (D : DoubleWithin M d) (hd : d ≤ 2 ^ (-50 : ℤ)) (hG : G.Sound) (hl : (G.min, G.max) ∈ libraryRanges) (hT : StreamsEquidistributed G es T)
    {theta eta : ℝ} (h0 : 1e-200 ≤ theta) (h1 : theta ≤ 1e200) (he : |eta| ≤ 1e200) :
    StreamsFollow (sampleOO (extremeValue M (fin theta) (fin eta)) G) es T (extremeValueLaw theta eta) (n * (1e-13 + 1.2e-16 * (|eta| / theta) + 14 / (G.max - G.min : ℝ)) + 1 / T) := by
  have hm : 0 < theta := lt_of_lt_of_le (by norm_num) h0
  exact streams_of (S := fun _ G => sampleOO (extremeValue M (fin theta) (fin eta)) G) (one_oo fun u => (extremeValue M (fin theta) (fin eta)).draw (fin (u : ℝ))) hG hT (extreme_law hm).2 fun h =>
    C101_extreme_value D hd (counter_sound hG) hl h h0 h1 he

/-- C105, rayleigh_dist<double>. -/
theorem C105_rayleigh (D : DoubleWithin M d) (hd : d ≤ 2 ^ (-50 : ℤ)) (hG : G.Sound) (hl : (G.min, G.max) ∈ libraryRanges) (hT : StreamsEquidistributed G es T)
    {nu : ℝ} (h0 : 1e-200 ≤ nu) (h1 : nu ≤ 1e200) :
    StreamsFollow (sampleOO (rayleigh M (fin nu)) G) es T (rayleighLaw nu) (n * (1e-13 + 14 / (G.max - G.min : ℝ)) + 1 / T) := by
  have hm : 0 < nu := lt_of_lt_of_le (by norm_num) h0
  exact streams_of (S := fun _ G => sampleOO (rayleigh M (fin nu)) G) (one_oo fun u => (rayleigh M (fin nu)).draw (fin (u : ℝ))) hG hT (rayleigh_law hm).2 fun h =>
    C101_rayleigh D hd (counter_sound hG) hl h h0 h1

/-- C105, normal_dist<double>. -/
theorem C105_normal (D : DoubleWithin M d) (hd : d ≤ 2 ^ (-50 : ℤ)) (hG : G.Sound) (hl : (G.min, G.max) ∈ libraryRanges) (hT : StreamsEquidistributed G es T)
    {c k b mu sigma : ℝ} (h0 : 1e-200 ≤ sigma) (h1 : sigma ≤ 1e200) (he : |mu| ≤ 1e200) :
    StreamsFollow (sampleOO (Rounded.normal M (invPhiDouble M) c k b (fin mu) (fin sigma)) G) es T (normalLaw mu sigma) (n * (5e-12 + 1.2e-16 * (|mu| / sigma) + 14 / (G.max - G.min : ℝ)) + 1 / T) := by
  have hm : 0 < sigma := lt_of_lt_of_le (by norm_num) h0
  exact streams_of (S := fun _ G => sampleOO (Rounded.normal M (invPhiDouble M) c k b (fin mu) (fin sigma)) G) (one_oo fun u => (Rounded.normal M (invPhiDouble M) c k b (fin mu) (fin sigma)).draw (fin (u : ℝ))) hG hT (normal_law hm).2 fun h =>
    C101_normal D hd (counter_sound hG) hl h h0 h1 he (c := c) (k := k) (b := b)

/-- C105, uniform01_dist<double>. -/
theorem C105_uniform01 (hG : G.Sound) (hT : StreamsEquidistributed G es T) :
    StreamsFollow (sampleCO uniform01Dist G) es T (uniformLaw 0 1) (n * (4e-15 + 14 / (G.max - G.min : ℝ)) + 1 / T) := by
  exact streams_of (S := fun _ G => sampleCO uniform01Dist G) (one_co fun u => uniform01Dist.draw (fin (u : ℝ))) hG hT (uniform_law one_pos).2 fun h =>
    C101_uniform01 (counter_sound hG) h

/-- C105, uniform_dist<double> from `a` to `b`. -/
theorem C105_uniform (D : DoubleWithin M d) (hG : G.Sound) (hT : StreamsEquidistributed G es T) {a b : ℝ} (ha : |a| ≤ 1e200) (hb : |b| ≤ 1e200) (hab : 1e-200 ≤ b - a) :
    StreamsFollow (sampleCO (Rounded.uniform M (fin a) (fin b)) G) es T (uniformLaw a b) (n * (5e-15 + 1.2e-16 * (|a| / (b - a)) + 14 / (G.max - G.min : ℝ)) + 1 / T) := by
  have h : 0 < b - a := lt_of_lt_of_le (by norm_num) hab
  exact streams_of (S := fun _ G => sampleCO (Rounded.uniform M (fin a) (fin b)) G) (one_co fun u => (Rounded.uniform M (fin a) (fin b)).draw (fin (u : ℝ))) hG hT (uniform_law (by linarith)).2 fun h =>
    C101_uniform D (counter_sound hG) h ha hb hab

/-- C105, tent_dist<double> from `m - w` to `m + w`. -/
theorem C105_tent (D : DoubleWithin M d) (hd : d ≤ 2 ^ (-50 : ℤ)) (hG : G.Sound) (hT : StreamsEquidistributed G es T)
    {m w : ℝ} (h0 : 1e-200 ≤ w) (h1 : w ≤ 1e200) (hm : |m| ≤ 1e200) :
    StreamsFollow (sampleCC (Rounded.tent M (fin m) (fin w)) G) es T (tentLaw m w) (n * (1e-13 + 2.4e-16 * (|m| / w) + 14 / (G.max - G.min : ℝ)) + 1 / T) := by
  have hw : 0 < w := lt_of_lt_of_le (by norm_num) h0
  exact streams_of (S := fun _ G => sampleCC (Rounded.tent M (fin m) (fin w)) G) (one_cc fun u => (Rounded.tent M (fin m) (fin w)).draw (fin (u : ℝ))) hG hT (tent_law hw).2 fun h =>
    C101_tent D hd (counter_sound hG) h h0 h1 hm

/-- C105, cauchy_dist<double>. -/
theorem C105_cauchy (D : DoubleWithin M d) (P : FunctionsWithin M d) (hd : d ≤ 2 ^ (-50 : ℤ)) (hG : G.Sound) (hl : (G.min, G.max) ∈ libraryRanges)
    (hT : StreamsEquidistributed G es T) {theta eta : ℝ} (h0 : 1e-100 ≤ theta) (h1 : theta ≤ 1e100) (he : |eta| ≤ 1e200) :
    StreamsFollow (sampleOO (Rounded.cauchy M piDouble oneOverPiDouble (fin theta) (fin eta)) G) es T (cauchyLaw theta eta) (n * (1e-14 + 1.2e-16 * (|eta| / theta) + 14 / (G.max - G.min : ℝ)) + 1 / T) := by
  have hm : 0 < theta := lt_of_lt_of_le (by norm_num) h0
  exact streams_of (S := fun _ G => sampleOO (Rounded.cauchy M piDouble oneOverPiDouble (fin theta) (fin eta)) G) (one_oo fun u => (Rounded.cauchy M piDouble oneOverPiDouble (fin theta) (fin eta)).draw (fin (u : ℝ))) hG hT (cauchy_law hm).2 fun h =>
    C101_cauchy D P hd (counter_sound hG) hl h h0 h1 he

/-- C105, pareto_dist<double>; the error grows with the exponent. -/
theorem C105_pareto (D : DoubleWithin M d) (P : FunctionsWithin M d) (hd : d ≤ 2 ^ (-50 : ℤ)) (hG : G.Sound) (hl : (G.min, G.max) ∈ libraryRanges)
    (hT : StreamsEquidistributed G es T) {gamma theta : ℝ} (g0 : 1 / 10 ≤ gamma) (g1 : gamma ≤ 1e15) (h0 : 1e-100 ≤ theta) (h1 : theta ≤ 1e100) :
    StreamsFollow (sampleOO (Rounded.pareto M (fin gamma) (fin theta)) G) es T (paretoLaw gamma theta) (n * (2e-14 + 3e-15 * gamma + 14 / (G.max - G.min : ℝ)) + 1 / T) := by
  have hm : 0 < theta := lt_of_lt_of_le (by norm_num) h0
  have hg : 0 < gamma := by linarith
  exact streams_of (S := fun _ G => sampleOO (Rounded.pareto M (fin gamma) (fin theta)) G) (one_oo fun u => (Rounded.pareto M (fin gamma) (fin theta)).draw (fin (u : ℝ))) hG hT (pareto_law hg hm).2 fun h =>
    C101_pareto D P hd (counter_sound hG) hl h g0 g1 h0 h1

/-- C105, powerlaw_dist<double>. -/
theorem C105_powerlaw (D : DoubleWithin M d) (P : FunctionsWithin M d) (hd : d ≤ 2 ^ (-50 : ℤ)) (hG : G.Sound)
    (hT : StreamsEquidistributed G es T) {gamma theta : ℝ} (g0 : 1 / 10 ≤ gamma) (g1 : gamma ≤ 1e15) (h0 : 1e-100 ≤ theta) (h1 : theta ≤ 1e100) :
    StreamsFollow (sampleOC (Rounded.powerlaw M (fin gamma) (fin theta)) G) es T (powerlawLaw gamma theta) (n * (2e-14 + 3e-15 * gamma + 14 / (G.max - G.min : ℝ)) + 1 / T) := by
  have hm : 0 < theta := lt_of_lt_of_le (by norm_num) h0
  have hg : 0 < gamma := by linarith
  exact streams_of (S := fun _ G => sampleOC (Rounded.powerlaw M (fin gamma) (fin theta)) G) (one_oc fun u => (Rounded.powerlaw M (fin gamma) (fin theta)).draw (fin (u : ℝ))) hG hT (powerlaw_law hg hm).2 fun h =>
    C101_powerlaw D P hd (counter_sound hG) h g0 g1 h0 h1

/-- C105, weibull_dist<double>. -/
theorem C105_weibull (D : DoubleWithin M d) (P : FunctionsWithin M d) (hd : d ≤ 2 ^ (-50 : ℤ)) (hG : G.Sound)
    (hT : StreamsEquidistributed G es T) {theta beta : ℝ} (g0 : 1 / 10 ≤ beta) (g1 : beta ≤ 1e15) (h0 : 1e-100 ≤ theta) (h1 : theta ≤ 1e100) :
    StreamsFollow (sampleOC (Rounded.weibull M (fin theta) (fin beta)) G) es T (weibullLaw theta beta) (n * (2e-14 + 3e-15 * beta + 14 / (G.max - G.min : ℝ)) + 1 / T) := by
  have hm : 0 < theta := lt_of_lt_of_le (by norm_num) h0
  have hg : 0 < beta := by linarith
  exact streams_of (S := fun _ G => sampleOC (Rounded.weibull M (fin theta) (fin beta)) G) (one_oc fun u => (Rounded.weibull M (fin theta) (fin beta)).draw (fin (u : ℝ))) hG hT (weibull_law hm hg).2 fun h =>
    C101_weibull D P hd (counter_sound hG) h g0 g1 h0 h1

/-- C105, lognormal_dist<double>. -/
theorem C105_lognormal (D : DoubleWithin M d) (hd : d ≤ 2 ^ (-50 : ℤ)) (hG : G.Sound) (hl : (G.min, G.max) ∈ libraryRanges) (hT : StreamsEquidistributed G es T)
    {c b mu sigma : ℝ} (h0 : 1e-200 ≤ sigma) (h1 : |mu| + 39 * sigma ≤ 680) :
    StreamsFollow (sampleOO (Rounded.lognormal M (invPhiDouble M) c b (fin mu) (fin sigma)) G) es T (lognormalLaw mu sigma) (n * (5e-12 + 2e-15 / sigma + 1.2e-16 * (|mu| / sigma) + 14 / (G.max - G.min : ℝ)) + 1 / T) := by
  have hm : 0 < sigma := lt_of_lt_of_le (by norm_num) h0
  exact streams_of (S := fun _ G => sampleOO (Rounded.lognormal M (invPhiDouble M) c b (fin mu) (fin sigma)) G) (one_oo fun u => (Rounded.lognormal M (invPhiDouble M) c b (fin mu) (fin sigma)).draw (fin (u : ℝ))) hG hT (lognormal_law hm).2 fun h =>
    C101_lognormal D hd (counter_sound hG) hl h h0 h1 (c := c) (b := b)

/-- C105, uniform_int_dist: the fraction of the calls in which the samples are v_0, ..., v_(n-1) is the product of the probabilities. -/
theorem C105_uniform_int (hG : G.Sound) (hT : StreamsEquidistributed G es T) {a b : ℤ} (ha : -2 ^ 31 ≤ a) (hb : b ≤ 2 ^ 31 - 1) (hab : a < b) (hd : b - a ≤ 2 ^ 31 - 1) :
    ∃ P, IntParam.mk' a b = some P ∧ IntegerStreams (P.sample float64 G) es T a (uniformInt a b) (n * (5e-15 + 14 / (G.max - G.min : ℝ)) + 1 / T) := by
  obtain ⟨P, hP, -⟩ := C102_uniform_int (counter_sound hG) counter_equi ha hb hab hd
  obtain ⟨-, s2, s3⟩ := uniformInt_sum hab
  refine ⟨P, hP, integers_streams_of (S := fun _ G => P.sample float64 G)
    (one_co fun u => (toInteger (-2 ^ 31) (2 ^ 31 - 1) (float64.rnd (float64.rnd P.d * u))).bind fun k => int32 (k + P.a)) hG hT s3 s2 fun h => ?_⟩
  obtain ⟨Q, hQ, h⟩ := C102_uniform_int (counter_sound hG) h ha hb hab hd
  rw [hP] at hQ
  rw [Option.some.inj hQ]
  exact h

/-- C105, `r(x)` of the engines. -/
theorem C105_bounded_int (hG : G.Sound) (hT : StreamsEquidistributed G es T) {x : ℤ} (h1 : 1 ≤ x) (h2 : x ≤ 2 ^ 63 - 1) :
    IntegerStreams (fun s => boundedInt float64 G s x) es T 0 (uniformInt 0 x) (n * (5e-15 + 14 / (G.max - G.min : ℝ)) + 1 / T) := by
  obtain ⟨-, s2, s3⟩ := uniformInt_sum (show 0 < x by omega)
  exact integers_streams_of (S := fun _ G s => boundedInt float64 G s x)
    (one_co fun u => toInteger (-2 ^ 63) (2 ^ 63 - 1) (float64.rnd (u * float64.rnd x))) hG hT s3 s2 fun h => C102_bounded_int (counter_sound hG) h h1 h2

/-- C105, discrete_dist with the weights of C102. -/
theorem C105_discrete (hG : G.Sound) (hT : StreamsEquidistributed G es T) (m : List ℕ) (z : ℤ) (h0 : 0 < m.sum) (hs : m.sum ≤ 2 ^ 53) :
    ∃ W, WTree.construct float64.rnd (m.map fun n : ℕ => (n : ℚ) * 2 ^ z) = some W ∧
      IntegerStreams (W.sample float64 G) es T 0 (weighted m) (n * (5e-15 + 14 / (G.max - G.min : ℝ)) + 1 / T) := by
  obtain ⟨W, hW, h⟩ := C72_discrete_float_partial float64_nearest (by decide) (counter_sound hG) m z h0 hs
  have hN : W.N ≠ 0 := by
    intro hN
    obtain ⟨k, -, hk, -⟩ := h 0
    rw [WTree.sample, if_pos hN] at hk
    have := Option.some.inj hk
    omega
  obtain ⟨-, s2, s3⟩ := weighted_sum m h0
  refine ⟨W, hW, integers_streams_of (S := fun _ G => W.sample float64 G) ⟨fun τ G hG s => ?_, fun τ ρ G H hG hH hm hM s t h => ?_⟩ hG hT s3 s2 fun h => ?_⟩
  · simp only [WTree.sample, if_neg hN]; exact (calls_one (F := float64) (by decide) hG s).2.2.2
  · simp only [WTree.sample, if_neg hN, (deviates hG hm hM h).2.2.2]
  · obtain ⟨Q, hQ, h⟩ := C102_discrete (counter_sound hG) h m z h0 hs
    rw [hW] at hQ
    rw [Option.some.inj hQ]
    exact h

/-- C105, geometric_dist. -/
theorem C105_geometric (D : DoubleWithin M d) (hd : d ≤ 2 ^ (-50 : ℤ)) (hG : G.Sound) (hl : (G.min, G.max) ∈ libraryRanges) (hT : StreamsEquidistributed G es T)
    {p : ℝ} (p0 : 1e-6 ≤ p) (p1 : p ≤ 1 - 2 ^ (-53 : ℤ)) :
    IntegerStreams (geometricSample M (fin p) G) es T 0 (Spec.geometric p) (n * (1e-13 + 1.1e-14 / p + 14 / (G.max - G.min : ℝ)) + 1 / T) := by
  have h53 : (0 : ℝ) < 2 ^ (-53 : ℤ) := by positivity
  obtain ⟨-, s2, s3⟩ := geometric_sum (p := p) (by linarith) (by linarith)
  exact integers_streams_of (S := fun _ G => geometricSample M (fin p) G) (one_oo fun u => Rounded.geometricDraw M (Rounded.geometric M (fin p)) (fin (u : ℝ))) hG hT s3 s2
    fun h => C102_geometric D hd (counter_sound hG) hl h p0 p1

/-- C105, binomial_dist with at most 10^6 trials. -/
theorem C105_binomial (D : DoubleWithin M d) (hd : d ≤ 2 ^ (-50 : ℤ)) (hG : G.Sound) (hl : (G.min, G.max) ∈ libraryRanges) (hT : StreamsEquidistributed G es T)
    {p : ℝ} (p0 : 2 ^ (-53 : ℤ) ≤ p) (p1 : p ≤ 1 - 2 ^ (-53 : ℤ)) {m : ℕ} (hm : m ≤ 1000000) :
    IntegerStreams (binomialSample M (fin p) m G) es T 0 (Spec.binomial p m) (n * (6e-16 * m ^ 2 + 3e-13 * m + 1.1e-14 + 14 / (G.max - G.min : ℝ)) + 1 / T) := by
  have h53 : (0 : ℝ) < 2 ^ (-53 : ℤ) := by positivity
  obtain ⟨-, s2, s3⟩ := binomial_sum (p := p) (by linarith) (by linarith) m
  exact integers_streams_of (S := fun _ G => binomialSample M (fin p) m G) (one_oo fun u => (Rounded.binomial M (fin p) m).draw (fin (u : ℝ))) hG hT s3 s2
    fun h => C102_binomial D hd (counter_sound hG) hl h p0 p1 hm

open scoped Nat in
/-- C105, hypergeometric_dist with the parameters of C102. -/
theorem C105_hypergeometric (D : DoubleWithin M d) (hd : d ≤ 2 ^ (-50 : ℤ)) (hg : ∀ k : ℕ, k ≤ 900 → Close d (M.lnGamma (fin (k + 1))) (Real.log (k ! : ℕ)))
    (hG : G.Sound) (hl : (G.min, G.max) ∈ libraryRanges) (hT : StreamsEquidistributed G es T) {N m : ℕ} (hm : m ≤ N) (hN : N ≤ 900) :
    IntegerStreams (hypergeometricSample M N m m G) es T (max 0 (2 * m - N : ℤ)) (Spec.hypergeometric N m m)
      (n * (9e-14 * N + 1.2e-14 + 14 / (G.max - G.min : ℝ)) + 1 / T) := by
  obtain ⟨-, s2, s3⟩ := hyper_sum hm
  have hlo : max 0 (2 * m - N : ℤ) = (hgMin N m m : ℤ) := by rw [hgMin]; omega
  exact integers_streams_of (S := fun _ G => hypergeometricSample M N m m G) (one_oo fun u => (Rounded.hypergeometric M N m m).draw (fin (u : ℝ))) hG hT s3
    (by rw [hlo]; exact s2) fun h => C102_hypergeometric D hd hg (counter_sound hG) hl h hm hN

open Classical in
/-- C105, bernoulli_dist: the fraction of the calls in which the n engines give given heads and tails is the product of the probabilities. -/
theorem C105_bernoulli {τ : Type} (P : BernoulliParam τ) (hne : P.head ≠ P.tail) (h0 : 0 ≤ P.p) (h1 : P.p ≤ 1) (hG : G.Sound) (hT : StreamsEquidistributed G es T)
    (v : Fin n → Bool) :
    |(((Finset.range T).filter fun k => ∀ i : Fin n, nth (P.sample float64 G) (es i) k = if v i then P.head else P.tail).card : ℝ) / T -
      ∏ i, (if v i then (P.p : ℝ) else 1 - P.p)| ≤ n * (4e-15 + 14 / (G.max - G.min : ℝ)) + 1 / T := by
  have g0 : (0 : ℝ) ≤ P.p := by exact_mod_cast h0
  have g1 : (P.p : ℝ) ≤ 1 := by exact_mod_cast h1
  have hF := C102_bernoulli P hne h0 h1 (counter_sound hG) counter_equi
  have hS : OneCall fun σ (G : Gen σ) => P.sample float64 G := one_co fun u => if u < P.p then P.head else P.tail
  refine le_trans (joint_general hS hG hT
    (fun i x => x = if v i then P.head else P.tail) (fun i => if v i then (P.p : ℝ) else 1 - P.p) (fun i => by split_ifs <;> constructor <;> linarith)
    (δ := 4e-15 + 13 / (G.max - G.min : ℝ) + 1 / ((G.max - G.min + 1 : ℕ) : ℝ)) fun i => ?_) (bound_le hG)
  by_cases hv : v i = true
  · simp only [hv, if_true]
    exact hF.2
  · simp only [hv, Bool.false_eq_true, if_false]
    have hN : (0 : ℝ) < ((G.max - G.min + 1 : ℕ) : ℝ) := by positivity
    have hc := Finset.card_filter_add_card_filter_not (s := Finset.range (G.max - G.min + 1))
      (fun k => nth (P.sample float64 (counter G.min G.max)) 0 k = P.head)
    have he : ((Finset.range (G.max - G.min + 1)).filter fun k => ¬ nth (P.sample float64 (counter G.min G.max)) 0 k = P.head) =
        (Finset.range (G.max - G.min + 1)).filter fun k => nth (P.sample float64 (counter G.min G.max)) 0 k = P.tail :=
      Finset.filter_congr fun k _ => ⟨fun h => (hF.1 k).resolve_left h, fun h h' => hne (h'.symm.trans h)⟩
    rw [he, Finset.card_range] at hc
    have h2 := hF.2
    have hc' : (((Finset.range (G.max - G.min + 1)).filter fun k => nth (P.sample float64 (counter G.min G.max)) 0 k = P.tail).card : ℝ) =
        ((G.max - G.min + 1 : ℕ) : ℝ) - ((Finset.range (G.max - G.min + 1)).filter fun k => nth (P.sample float64 (counter G.min G.max)) 0 k = P.head).card := by
      rw [eq_sub_iff_add_eq, add_comm]; exact_mod_cast hc
    rw [hc', sub_div, div_self hN.ne', sub_sub_sub_cancel_left, abs_sub_comm]
    exact h2

/-! ### Example -/

open MRG in
/-- Two default yarn4 engines, the second 1000 calls ahead: exponential samples. -/
example : ∃ e' : {e : MRG (Kind.order .k4) // InRange (Kind.modulus .k4) e}, e'.1 = (init .k4).jump (Kind.modulus .k4) 1000 ∧
    StreamsFollow (sampleOC (exponential doubleMachine (fin 3)) (yarnGen .k4)) ![⟨init .k4, init_inRange .k4⟩, e'] (Kind.modulus .k4 ^ Kind.order .k4 - 1)
      (exponentialLaw 3) ((2 : ℕ) * (1e-13 + 14 / ((yarnGen .k4).max - (yarnGen .k4).min : ℝ)) + 1 / (Kind.modulus .k4 ^ Kind.order .k4 - 1 : ℕ)) := by
  obtain ⟨e', h, -, h2⟩ := C105_jump_any .k4 (by decide) (l := [2001982722, 1412284257, 1155380217, 1668339922]) (by decide) ⟨init .k4, init_inRange .k4⟩
    (by intro i; revert i; decide) ⟨⟨1, by decide⟩, by decide⟩ 1000 (by decide)
  exact ⟨e', h, C105_exponential C100_machine (by norm_num) (yarn_sound .k4) h2 (by norm_num) (by norm_num)⟩

end Trng.Props
