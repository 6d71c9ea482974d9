import Verif.Proofs.HalfPeriodEngines
import Verif.Props.Streams

/-! Property C106: the default engines mrg3s, mrg5s, yarn3s and yarn5s over their period, which is only half the documented one. -/
namespace Trng.Props
open XR Spec Rounded PeriodLaw Trng.Uniform FP Trng.Discrete Independence Streams HalfPeriod

/-! ### The engines -/

section
open MRG
variable (K : Kind) {l : List Int}

/-- C106, the frequency of the numbers that mrg3s and mrg5s with their default parameters return over their period of (mⁿ-1)/2 calls. The number 0 occurs
(mⁿ⁻¹-1)/2 times. Of the other numbers those that are squares modulo m occur equally often, and so do those that are not; the one half occurs
(mⁿ⁻¹ + m^((n-1)/2))/2 times, the other half (mⁿ⁻¹ - m^((n-1)/2))/2 times. -/
theorem C106_frequency (hl : l ∈ halfPeriod K) (e : MRG K.order) (hr : InRange K.modulus e) (hu : Uses e l) (hz : NonZero e) (c : ℤ → ℕ)
    (hc : ∀ v, c v = ((Finset.range ((K.modulus ^ K.order - 1) / 2)).filter fun k => nth (call K.modulus) e k = v).card) :
    2 * c 0 + 1 = K.modulus ^ (K.order - 1) ∧
    ∃ x y, ((2 * x = K.modulus ^ (K.order - 1) + K.modulus ^ ((K.order - 1) / 2) ∧ 2 * y + K.modulus ^ ((K.order - 1) / 2) = K.modulus ^ (K.order - 1)) ∨
        (2 * y = K.modulus ^ (K.order - 1) + K.modulus ^ ((K.order - 1) / 2) ∧ 2 * x + K.modulus ^ ((K.order - 1) / 2) = K.modulus ^ (K.order - 1))) ∧
      ∀ v : ℤ, 0 < v → v < K.modulus → ((∃ z : ℤ, (K.modulus : ℤ) ∣ z * z - v) → c v = x) ∧ ((¬ ∃ z : ℤ, (K.modulus : ℤ) ∣ z * z - v) → c v = y) := by
  obtain ⟨h0, h1, h2, h3⟩ := frequency hl hr hu hz c hc
  refine ⟨h0, c 1, c (K.modulus - 1), ?_, h3⟩
  have hodd : (K.order - 1) / 2 * 2 = K.order - 1 := by
    cases K <;> first | exact absurd hl List.not_mem_nil | decide
  have hsq : K.modulus ^ (K.order - 1) = (K.modulus ^ ((K.order - 1) / 2)) ^ 2 := by rw [← pow_mul, hodd]
  generalize K.modulus ^ ((K.order - 1) / 2) = M at *
  have hsq' : (K.modulus : ℤ) ^ (K.order - 1) = (M : ℤ) ^ 2 := by exact_mod_cast hsq
  rw [hsq'] at h1
  rw [hsq] at h2 ⊢
  rcases sq_eq_sq_iff_eq_or_eq_neg.1 h1 with h | h
  · left
    have : 2 * c 1 = M ^ 2 + M := by zify; linarith
    exact ⟨this, by omega⟩
  · right
    have : 2 * c 1 + M = M ^ 2 := by zify; linarith
    exact ⟨by omega, this⟩

/-- The default mrg3s, and 4 is a square. -/
example : ([2025213985, 1112953677, 2038969601] : List Int) ∈ halfPeriod .k3s ∧ InRange (Kind.modulus .k3s) (init .k3s) ∧
    Uses (init .k3s) [2025213985, 1112953677, 2038969601] ∧ NonZero (init .k3s) ∧ (∃ z : ℤ, (Kind.modulus .k3s : ℤ) ∣ z * z - 4) ∧ Kind.order .k3s = 3 :=
  ⟨by decide, init_inRange .k3s, by intro i; revert i; decide, ⟨⟨1, by decide⟩, by decide⟩, ⟨2, by norm_num⟩, rfl⟩

/-- C106: the numbers that d engines with these parameters return in the same calls are independent up to 1/√(mⁿ⁻ᵈ), if no linear combination of them vanishes
modulo m in all calls. -/
theorem C106_mrg (hl : l ∈ halfPeriod K) {d : ℕ} (es : Fin (d + 1) → {e : MRG K.order // InRange K.modulus e}) (hu : ∀ i, Uses (es i).1 l) (hz : ∀ i, NonZero (es i).1)
    (hno : ∀ g : Fin (d + 1) → ℤ, (∀ k, (K.modulus : ℤ) ∣ ∑ i, g i * nth (call K.modulus) (es i).1 k) → ∀ i, (K.modulus : ℤ) ∣ g i) :
    StreamsNearly (mrgGen K) es ((K.modulus ^ K.order - 1) / 2) (1 / √((K.modulus : ℝ) ^ (K.order - (d + 1)))) := nearly hl es hu hz hno

/-- C106: and so are the numbers that the yarn engines with the same states return. -/
theorem C106_yarn {d T : ℕ} {η : ℝ} (es : Fin d → {e : MRG K.order // InRange K.modulus e}) (h : StreamsNearly (mrgGen K) es T η) :
    StreamsNearly (yarnGen K) es T η := yarn_nearly es h

/-- C106: d successive numbers of one engine are independent up to 1/√(mⁿ⁻ᵈ). For d = 1: the numbers of the engine are uniformly distributed, up to 1/m for
mrg3s and yarn3s, 1/m² for mrg5s and yarn5s. -/
theorem C106_successive (hl : l ∈ halfPeriod K) (e : {e : MRG K.order // InRange K.modulus e}) (hu : Uses e.1 l) (hz : NonZero e.1) {d : ℕ} (hd0 : 0 < d) (hd : d ≤ K.order) :
    StreamsNearly (mrgGen K) (fun i : Fin d => afterCalls (mrgGen K).call i.val e) ((K.modulus ^ K.order - 1) / 2) (1 / √((K.modulus : ℝ) ^ (K.order - d))) ∧
    StreamsNearly (yarnGen K) (fun i : Fin d => afterCalls (mrgGen K).call i.val e) ((K.modulus ^ K.order - 1) / 2) (1 / √((K.modulus : ℝ) ^ (K.order - d))) := by
  obtain ⟨d, rfl⟩ := Nat.exists_eq_succ_of_ne_zero hd0.ne'
  have key : StreamsNearly (mrgGen K) (fun i : Fin (d + 1) => afterCalls (mrgGen K).call i.val e) ((K.modulus ^ K.order - 1) / 2)
      (1 / √((K.modulus : ℝ) ^ (K.order - (d + 1)))) := by
    refine C106_mrg K hl _ (fun i => by rw [mrgGen, sub_after]; exact uses_after hu _) (fun i => by rw [mrgGen, sub_after]; exact half_nonZero hl e.2 hu hz _)
      fun g hg => no_relation_successive hl e.2 hu hz hd g fun k => ?_
    have := hg k
    simp only [mrgGen, sub_after] at this
    convert this using 3 with i
    rw [nth, nth, afterCalls_add]
  exact ⟨key, C106_yarn K _ key⟩

/-- C106: two engines are independent up to 1/√(mⁿ⁻²) if the state of the one is not a multiple modulo m of the state of the other. -/
theorem C106_pair (hl : l ∈ halfPeriod K) (e e' : {e : MRG K.order // InRange K.modulus e}) (hu : Uses e.1 l) (hz : NonZero e.1) (hu' : Uses e'.1 l) (hz' : NonZero e'.1)
    (hp : ¬ ∃ g : ℤ, ∀ i, (K.modulus : ℤ) ∣ e'.1.r i - g * e.1.r i) :
    StreamsNearly (mrgGen K) ![e, e'] ((K.modulus ^ K.order - 1) / 2) (1 / √((K.modulus : ℝ) ^ (K.order - 2))) ∧
    StreamsNearly (yarnGen K) ![e, e'] ((K.modulus ^ K.order - 1) / 2) (1 / √((K.modulus : ℝ) ^ (K.order - 2))) := by
  have key := C106_mrg K hl (d := 1) ![e, e'] (by rw [Fin.forall_fin_two]; exact ⟨hu, hu'⟩) (by rw [Fin.forall_fin_two]; exact ⟨hz, hz'⟩)
    (no_relation_pair hl e e' hu hz hu' hp)
  exact ⟨key, C106_yarn K _ key⟩

/-- C106: an engine and the same engine after `jump(s)`, unless s is a multiple of (mⁿ - 1)/(m - 1). -/
theorem C106_jump (hl : l ∈ halfPeriod K) (e : {e : MRG K.order // InRange K.modulus e}) (hu : Uses e.1 l) (hz : NonZero e.1) (s : BitVec 64)
    (hs : ¬ (K.modulus ^ K.order - 1) / (K.modulus - 1) ∣ s.toNat) :
    ∃ e' : {e : MRG K.order // InRange K.modulus e}, e'.1 = e.1.jump K.modulus s ∧
      StreamsNearly (mrgGen K) ![e, e'] ((K.modulus ^ K.order - 1) / 2) (1 / √((K.modulus : ℝ) ^ (K.order - 2))) ∧
      StreamsNearly (yarnGen K) ![e, e'] ((K.modulus ^ K.order - 1) / 2) (1 / √((K.modulus : ℝ) ^ (K.order - 2))) := by
  refine ⟨afterCalls (mrgGen K).call s.toNat e, ?_, C106_pair K hl e _ hu hz (by rw [mrgGen, sub_after]; exact uses_after hu _)
    (by rw [mrgGen, sub_after]; exact half_nonZero hl e.2 hu hz _) ?_⟩
  · rw [mrgGen, sub_after, (C27_mrg_discard K e.1 e.2 s).2.2, (C27_mrg_discard K e.1 e.2 s).1]
  · rw [mrgGen, sub_after]
    exact half_lag hl e.2 hu hz hs

/-- C106: two engines seeded with numbers that differ modulo m. -/
theorem C106_seed (hl : l ∈ halfPeriod K) (e : MRG K.order) (hr : InRange K.modulus e) (hu : Uses e l) (s s' : BitVec 64)
    (h : s.toInt % K.modulus ≠ s'.toInt % K.modulus) :
    ∃ e1 e2 : {e : MRG K.order // InRange K.modulus e}, e1.1 = e.seed K.modulus s ∧ e2.1 = e.seed K.modulus s' ∧
      StreamsNearly (mrgGen K) ![e1, e2] ((K.modulus ^ K.order - 1) / 2) (1 / √((K.modulus : ℝ) ^ (K.order - 2))) ∧
      StreamsNearly (yarnGen K) ![e1, e2] ((K.modulus ^ K.order - 1) / 2) (1 / √((K.modulus : ℝ) ^ (K.order - 2))) := by
  obtain ⟨r1, z1, -⟩ := C31_mrg_seed_range K e hr s (fun _ => 0) (fun _ => 0)
  obtain ⟨r2, z2, -⟩ := C31_mrg_seed_range K e hr s' (fun _ => 0) (fun _ => 0)
  refine ⟨⟨_, r1⟩, ⟨_, r2⟩, rfl, rfl, C106_pair K hl ⟨_, r1⟩ ⟨_, r2⟩ hu z1 hu z2 ?_⟩
  rintro ⟨g, hg⟩
  have hn : 1 < K.order := by cases K <;> decide
  have h1 : (⟨1, hn⟩ : Fin K.order) ≠ 0 := by
    intro hc; have := congrArg Fin.val hc; simp at this
  have e1 := hg ⟨1, hn⟩
  have e0 := hg 0
  simp only [(C31_mrg_seed_residue K e s (fun _ => 0) _).2.1 h1, (C31_mrg_seed_residue K e s' (fun _ => 0) _).2.1 h1] at e1
  simp only [(C31_mrg_seed_residue K e s (fun _ => 0) 0).1, (C31_mrg_seed_residue K e s' (fun _ => 0) 0).1] at e0
  have e2 : (K.modulus : ℤ) ∣ s'.toInt % K.modulus - s.toInt % K.modulus := by
    have := dvd_sub e0 (Dvd.dvd.mul_right e1 (s.toInt % K.modulus))
    rwa [show s'.toInt % K.modulus - g * (s.toInt % K.modulus) - (1 - g * 1) * (s.toInt % K.modulus) = s'.toInt % K.modulus - s.toInt % K.modulus by ring] at this
  have := Int.emod_eq_emod_iff_emod_sub_eq_zero.2 (Int.emod_eq_zero_of_dvd e2)
  rw [Int.emod_emod_of_dvd _ (dvd_refl _), Int.emod_emod_of_dvd _ (dvd_refl _)] at this
  exact h this.symm

/-- The default mrg5s seeded with 1 and 2. -/
example : ∃ e1 e2 : {e : MRG (Kind.order .k5s) // InRange (Kind.modulus .k5s) e},
    e1.1 = (init .k5s).seed (Kind.modulus .k5s) 1 ∧ e2.1 = (init .k5s).seed (Kind.modulus .k5s) 2 ∧
    StreamsNearly (mrgGen .k5s) ![e1, e2] ((Kind.modulus .k5s ^ Kind.order .k5s - 1) / 2) (1 / √((Kind.modulus .k5s : ℝ) ^ (Kind.order .k5s - 2))) := by
  obtain ⟨e1, e2, a, b, c, -⟩ := C106_seed .k5s (l := [1053223373, 1530818118, 1612122482, 133497989, 573245311]) (by decide) (init .k5s) (init_inRange .k5s)
    (by intro i; revert i; decide) 1 2 (by decide)
  exact ⟨e1, e2, a, b, c⟩

/-- C106: any d neighbouring leapfrog streams, out of any number of streams up to 10⁹, even or odd, are independent up to 1/√(mⁿ⁻ᵈ). -/
theorem C106_split (hl : l ∈ halfPeriod K) (e : {e : MRG K.order // InRange K.modulus e}) (hu : Uses e.1 l) (hz : NonZero e.1)
    (s : BitVec 32) (hs : s.toNat ≤ 1000000000) {i d : ℕ} (hd0 : 0 < d) (hd : d ≤ K.order) (hi : i + d ≤ s.toNat) :
    ∃ E : Fin d → {e : MRG K.order // InRange K.modulus e}, (∀ u, split K.modulus e.1 s (BitVec.ofNat 32 (i + u.val)) = .ok (E u).1) ∧
      StreamsNearly (mrgGen K) E ((K.modulus ^ K.order - 1) / 2) (1 / √((K.modulus : ℝ) ^ (K.order - d))) ∧
      StreamsNearly (yarnGen K) E ((K.modulus ^ K.order - 1) / 2) (1 / √((K.modulus : ℝ) ^ (K.order - d))) := by
  have hn : ∀ u : Fin d, (BitVec.ofNat 32 (i + u.val)).toNat = i + u.val := fun u => by
    have := s.isLt
    have := u.isLt
    rw [BitVec.toNat_ofNat, Nat.mod_eq_of_lt (by omega)]
  have hex : ∀ u : Fin d, ∃ e' : {e : MRG K.order // InRange K.modulus e}, split K.modulus e.1 s (BitVec.ofNat 32 (i + u.val)) = .ok e'.1 ∧
      Leapfrog (call K.modulus) e.1 e'.1 s.toNat (i + u.val) := fun u => by
    obtain ⟨e1, h1, r1, l1, -⟩ := C28_mrg_split_leapfrog K e.1 (half_splittable hl e.2 hu) s (BitVec.ofNat 32 (i + u.val))
      (by rw [BitVec.lt_def, hn]; have := u.isLt; omega)
    rw [hn] at l1
    exact ⟨⟨e1, r1⟩, h1, l1⟩
  choose E hE using hex
  obtain ⟨p1, -, -, -⟩ := C32_mrg_period_wrong K l hl e.1 hu e.2 hz
  have key : StreamsNearly (mrgGen K) E ((K.modulus ^ K.order - 1) / 2) (1 / √((K.modulus : ℝ) ^ (K.order - d))) := by
    refine leapfrog_nearly (e := e) (s := s.toNat) (o := fun u => i + u.val) ?_ (fun k => ?_) (half_coprime hl (by omega) hs) (fun u k => ?_)
    · have h := (C106_successive K hl (afterCalls (mrgGen K).call i e) (by rw [mrgGen, sub_after]; exact uses_after hu _)
        (by rw [mrgGen, sub_after]; exact half_nonZero hl e.2 hu hz _) hd0 hd).1
      simp only [← afterCalls_add] at h
      simpa only [add_comm] using h
    · rw [mrgGen, sub_nth, sub_nth, LeapfrogUniform.nth_period p1.2.1]
    · rw [mrgGen, sub_nth, sub_nth, (hE u).2 k]
  exact ⟨E, fun u => (hE u).1, key, C106_yarn K _ key⟩

end

/-! ### The distributions -/

variable {σ : Type} {M : Machine} {d : ℝ} {G : Gen σ} {T n : ℕ} {es : Fin n → σ} {η : ℝ}

/-- C106, exponential_dist<double>: with n engines whose numbers are independent up to η over T calls, with `double` arithmetic and a C library of relative
error at most 2⁻⁵⁰, every sample is a number, and for all t_0, ..., t_(n-1) the fraction of the calls in which the samples with the engines are at most t_0,
..., t_(n-1) is the product of the probabilities, up to n times the sum of 1e-13 and 14 divided by the length of the engine's range, and η. -/
theorem C106_exponential (D : DoubleWithin M d) (hd : d ≤ 2 ^ (-50 : ℤ)) (hG : G.Sound) (hT : StreamsNearly G es T η) {mu : ℝ}
    (h0 : 1e-200 ≤ mu) (h1 : mu ≤ 1e200) :
    StreamsFollow (sampleOC (exponential M (fin mu)) G) es T (exponentialLaw mu) (n * (1e-13 + 14 / (G.max - G.min : ℝ)) + η) := by
  have hm : 0 < mu := lt_of_lt_of_le (by norm_num) h0
  exact nearly_of (S := fun _ G => sampleOC (exponential M (fin mu)) G) (one_oc fun u => (exponential M (fin mu)).draw (fin (u : ℝ))) hG hT (exponential_law hm).2 fun h =>
    C101_exponential D hd (counter_sound hG) h h0 h1

/-- C106, twosided_exponential_dist<double>. -/
theorem C106_twosided (D : DoubleWithin M d) (hd : d ≤ 2 ^ (-50 : ℤ)) (hG : G.Sound) (hl : (G.min, G.max) ∈ libraryRanges) (hT : StreamsNearly G es T η)
    {mu : ℝ} (h0 : 1e-200 ≤ mu) (h1 : mu ≤ 1e200) :
    StreamsFollow (sampleOO (twosidedExponential M (fin mu)) G) es T (twosidedLaw mu) (n * (1e-13 + 14 / (G.max - G.min : ℝ)) + η) := by
  have hm : 0 < mu := lt_of_lt_of_le (by norm_num) h0
  exact nearly_of (S := fun _ G => sampleOO (twosidedExponential M (fin mu)) G) (one_oo fun u => (twosidedExponential M (fin mu)).draw (fin (u : ℝ))) hG hT (twosided_law hm).2 fun h =>
    C101_twosided D hd (counter_sound hG) hl h h0 h1

/-- C106, logistic_dist<double>: the rounding of the shift by `eta` adds an error proportional to `eta/theta`. -/
theorem C106_logistic (D : DoubleWithin M d) (hd : d ≤ 2 ^ (-50 : ℤ)) (hG : G.Sound) (hl : (G.min, G.max) ∈ libraryRanges) (hT : StreamsNearly G es T η)
    {theta eta : ℝ} (h0 : 1e-200 ≤ theta) (h1 : theta ≤ 1e200) (he : |eta| ≤ 1e200) :
    StreamsFollow (sampleOO (logistic M (fin theta) (fin eta)) G) es T (logisticLaw theta eta) (n * (1e-13 + 1.2e-16 * (|eta| / theta) + 14 / (G.max - G.min : ℝ)) + η) := by
  have hm : 0 < theta := lt_of_lt_of_le (by norm_num) h0
  exact nearly_of (S := fun _ G => sampleOO (logistic M (fin theta) (fin eta)) G) (one_oo fun u => (logistic M (fin theta) (fin eta)).draw (fin (u : ℝ))) hG hT (logistic_law hm).2 fun h =>
    C101_logistic D hd (counter_sound hG) hl h h0 h1 he

/-- C106, extreme_value_dist<double>. -/
theorem C106_extreme_value (D : DoubleWithin M d) (hd : d ≤ 2 ^ (-50 : ℤ)) (hG : G.Sound) (hl : (G.min, G.max) ∈ libraryRanges) (hT : StreamsNearly G es T η)
    {theta eta : ℝ} (h0 : 1e-200 ≤ theta) (h1 : theta ≤ 1e200) (he : |eta| ≤ 1e200) :
    StreamsFollow (sampleOO (extremeValue M (fin theta) (fin eta)) G) es T (extremeValueLaw theta eta) (n * (1e-13 + 1.2e-16 * (|eta| / theta) + 14 / (G.max - G.min : ℝ)) + η) := by
  have hm : 0 < theta := lt_of_lt_of_le (by norm_num) h0
  exact nearly_of (S := fun _ G => sampleOO (extremeValue M (fin theta) (fin eta)) G) (one_oo fun u => (extremeValue M (fin theta) (fin eta)).draw (fin (u : ℝ))) hG hT (extreme_law hm).2 fun h =>
    C101_extreme_value D hd (counter_sound hG) hl h h0 h1 he

/-- C106, rayleigh_dist<double>. -/
theorem C106_rayleigh (D : DoubleWithin M d) (hd : d ≤ 2 ^ (-50 : ℤ)) (hG : G.Sound) (hl : (G.min, G.max) ∈ libraryRanges) (hT : StreamsNearly G es T η)
    {nu : ℝ} (h0 : 1e-200 ≤ nu) (h1 : nu ≤ 1e200) :
    StreamsFollow (sampleOO (rayleigh M (fin nu)) G) es T (rayleighLaw nu) (n * (1e-13 + 14 / (G.max - G.min : ℝ)) + η) := by
  have hm : 0 < nu := lt_of_lt_of_le (by norm_num) h0
  exact nearly_of (S := fun _ G => sampleOO (rayleigh M (fin nu)) G) (one_oo fun u => (rayleigh M (fin nu)).draw (fin (u : ℝ))) hG hT (rayleigh_law hm).2 fun h =>
    C101_rayleigh D hd (counter_sound hG) hl h h0 h1

/-- C106, normal_dist<double>. -/
theorem C106_normal (D : DoubleWithin M d) (hd : d ≤ 2 ^ (-50 : ℤ)) (hG : G.Sound) (hl : (G.min, G.max) ∈ libraryRanges) (hT : StreamsNearly G es T η)
    {c k b mu sigma : ℝ} (h0 : 1e-200 ≤ sigma) (h1 : sigma ≤ 1e200) (he : |mu| ≤ 1e200) :
    StreamsFollow (sampleOO (Rounded.normal M (invPhiDouble M) c k b (fin mu) (fin sigma)) G) es T (normalLaw mu sigma) (n * (5e-12 + 1.2e-16 * (|mu| / sigma) + 14 / (G.max - G.min : ℝ)) + η) := by
  have hm : 0 < sigma := lt_of_lt_of_le (by norm_num) h0
  exact nearly_of (S := fun _ G => sampleOO (Rounded.normal M (invPhiDouble M) c k b (fin mu) (fin sigma)) G) (one_oo fun u => (Rounded.normal M (invPhiDouble M) c k b (fin mu) (fin sigma)).draw (fin (u : ℝ))) hG hT (normal_law hm).2 fun h =>
    C101_normal D hd (counter_sound hG) hl h h0 h1 he (c := c) (k := k) (b := b)

/-- C106, uniform01_dist<double>. -/
theorem C106_uniform01 (hG : G.Sound) (hT : StreamsNearly G es T η) :
    StreamsFollow (sampleCO uniform01Dist G) es T (uniformLaw 0 1) (n * (4e-15 + 14 / (G.max - G.min : ℝ)) + η) := by
  exact nearly_of (S := fun _ G => sampleCO uniform01Dist G) (one_co fun u => uniform01Dist.draw (fin (u : ℝ))) hG hT (uniform_law one_pos).2 fun h =>
    C101_uniform01 (counter_sound hG) h

/-- C106, uniform_dist<double> from `a` to `b`. -/
theorem C106_uniform (D : DoubleWithin M d) (hG : G.Sound) (hT : StreamsNearly G es T η) {a b : ℝ} (ha : |a| ≤ 1e200) (hb : |b| ≤ 1e200) (hab : 1e-200 ≤ b - a) :
    StreamsFollow (sampleCO (Rounded.uniform M (fin a) (fin b)) G) es T (uniformLaw a b) (n * (5e-15 + 1.2e-16 * (|a| / (b - a)) + 14 / (G.max - G.min : ℝ)) + η) := by
  have h : 0 < b - a := lt_of_lt_of_le (by norm_num) hab
  exact nearly_of (S := fun _ G => sampleCO (Rounded.uniform M (fin a) (fin b)) G) (one_co fun u => (Rounded.uniform M (fin a) (fin b)).draw (fin (u : ℝ))) hG hT (uniform_law (by linarith)).2 fun h =>
    C101_uniform D (counter_sound hG) h ha hb hab

/-- C106, tent_dist<double> from `m - w` to `m + w`. -/
theorem C106_tent (D : DoubleWithin M d) (hd : d ≤ 2 ^ (-50 : ℤ)) (hG : G.Sound) (hT : StreamsNearly G es T η)
    {m w : ℝ} (h0 : 1e-200 ≤ w) (h1 : w ≤ 1e200) (hm : |m| ≤ 1e200) :
    StreamsFollow (sampleCC (Rounded.tent M (fin m) (fin w)) G) es T (tentLaw m w) (n * (1e-13 + 2.4e-16 * (|m| / w) + 14 / (G.max - G.min : ℝ)) + η) := by
  have hw : 0 < w := lt_of_lt_of_le (by norm_num) h0
  exact nearly_of (S := fun _ G => sampleCC (Rounded.tent M (fin m) (fin w)) G) (one_cc fun u => (Rounded.tent M (fin m) (fin w)).draw (fin (u : ℝ))) hG hT (tent_law hw).2 fun h =>
    C101_tent D hd (counter_sound hG) h h0 h1 hm

/-- C106, cauchy_dist<double>. -/
theorem C106_cauchy (D : DoubleWithin M d) (P : FunctionsWithin M d) (hd : d ≤ 2 ^ (-50 : ℤ)) (hG : G.Sound) (hl : (G.min, G.max) ∈ libraryRanges)
    (hT : StreamsNearly G es T η) {theta eta : ℝ} (h0 : 1e-100 ≤ theta) (h1 : theta ≤ 1e100) (he : |eta| ≤ 1e200) :
    StreamsFollow (sampleOO (Rounded.cauchy M piDouble oneOverPiDouble (fin theta) (fin eta)) G) es T (cauchyLaw theta eta) (n * (1e-14 + 1.2e-16 * (|eta| / theta) + 14 / (G.max - G.min : ℝ)) + η) := by
  have hm : 0 < theta := lt_of_lt_of_le (by norm_num) h0
  exact nearly_of (S := fun _ G => sampleOO (Rounded.cauchy M piDouble oneOverPiDouble (fin theta) (fin eta)) G) (one_oo fun u => (Rounded.cauchy M piDouble oneOverPiDouble (fin theta) (fin eta)).draw (fin (u : ℝ))) hG hT (cauchy_law hm).2 fun h =>
    C101_cauchy D P hd (counter_sound hG) hl h h0 h1 he

/-- C106, pareto_dist<double>; the error grows with the exponent. -/
theorem C106_pareto (D : DoubleWithin M d) (P : FunctionsWithin M d) (hd : d ≤ 2 ^ (-50 : ℤ)) (hG : G.Sound) (hl : (G.min, G.max) ∈ libraryRanges)
    (hT : StreamsNearly G es T η) {gamma theta : ℝ} (g0 : 1 / 10 ≤ gamma) (g1 : gamma ≤ 1e15) (h0 : 1e-100 ≤ theta) (h1 : theta ≤ 1e100) :
    StreamsFollow (sampleOO (Rounded.pareto M (fin gamma) (fin theta)) G) es T (paretoLaw gamma theta) (n * (2e-14 + 3e-15 * gamma + 14 / (G.max - G.min : ℝ)) + η) := by
  have hm : 0 < theta := lt_of_lt_of_le (by norm_num) h0
  have hg : 0 < gamma := by linarith
  exact nearly_of (S := fun _ G => sampleOO (Rounded.pareto M (fin gamma) (fin theta)) G) (one_oo fun u => (Rounded.pareto M (fin gamma) (fin theta)).draw (fin (u : ℝ))) hG hT (pareto_law hg hm).2 fun h =>
    C101_pareto D P hd (counter_sound hG) hl h g0 g1 h0 h1

/-- C106, powerlaw_dist<double>. -/
theorem C106_powerlaw (D : DoubleWithin M d) (P : FunctionsWithin M d) (hd : d ≤ 2 ^ (-50 : ℤ)) (hG : G.Sound)
    (hT : StreamsNearly G es T η) {gamma theta : ℝ} (g0 : 1 / 10 ≤ gamma) (g1 : gamma ≤ 1e15) (h0 : 1e-100 ≤ theta) (h1 : theta ≤ 1e100) :
    StreamsFollow (sampleOC (Rounded.powerlaw M (fin gamma) (fin theta)) G) es T (powerlawLaw gamma theta) (n * (2e-14 + 3e-15 * gamma + 14 / (G.max - G.min : ℝ)) + η) := by
  have hm : 0 < theta := lt_of_lt_of_le (by norm_num) h0
  have hg : 0 < gamma := by linarith
  exact nearly_of (S := fun _ G => sampleOC (Rounded.powerlaw M (fin gamma) (fin theta)) G) (one_oc fun u => (Rounded.powerlaw M (fin gamma) (fin theta)).draw (fin (u : ℝ))) hG hT (powerlaw_law hg hm).2 fun h =>
    C101_powerlaw D P hd (counter_sound hG) h g0 g1 h0 h1

/-- C106, weibull_dist<double>. -/
theorem C106_weibull (D : DoubleWithin M d) (P : FunctionsWithin M d) (hd : d ≤ 2 ^ (-50 : ℤ)) (hG : G.Sound)
    (hT : StreamsNearly G es T η) {theta beta : ℝ} (g0 : 1 / 10 ≤ beta) (g1 : beta ≤ 1e15) (h0 : 1e-100 ≤ theta) (h1 : theta ≤ 1e100) :
    StreamsFollow (sampleOC (Rounded.weibull M (fin theta) (fin beta)) G) es T (weibullLaw theta beta) (n * (2e-14 + 3e-15 * beta + 14 / (G.max - G.min : ℝ)) + η) := by
  have hm : 0 < theta := lt_of_lt_of_le (by norm_num) h0
  have hg : 0 < beta := by linarith
  exact nearly_of (S := fun _ G => sampleOC (Rounded.weibull M (fin theta) (fin beta)) G) (one_oc fun u => (Rounded.weibull M (fin theta) (fin beta)).draw (fin (u : ℝ))) hG hT (weibull_law hm hg).2 fun h =>
    C101_weibull D P hd (counter_sound hG) h g0 g1 h0 h1

/-- C106, lognormal_dist<double>. -/
theorem C106_lognormal (D : DoubleWithin M d) (hd : d ≤ 2 ^ (-50 : ℤ)) (hG : G.Sound) (hl : (G.min, G.max) ∈ libraryRanges) (hT : StreamsNearly G es T η)
    {c b mu sigma : ℝ} (h0 : 1e-200 ≤ sigma) (h1 : |mu| + 39 * sigma ≤ 680) :
    StreamsFollow (sampleOO (Rounded.lognormal M (invPhiDouble M) c b (fin mu) (fin sigma)) G) es T (lognormalLaw mu sigma) (n * (5e-12 + 2e-15 / sigma + 1.2e-16 * (|mu| / sigma) + 14 / (G.max - G.min : ℝ)) + η) := by
  have hm : 0 < sigma := lt_of_lt_of_le (by norm_num) h0
  exact nearly_of (S := fun _ G => sampleOO (Rounded.lognormal M (invPhiDouble M) c b (fin mu) (fin sigma)) G) (one_oo fun u => (Rounded.lognormal M (invPhiDouble M) c b (fin mu) (fin sigma)).draw (fin (u : ℝ))) hG hT (lognormal_law hm).2 fun h =>
    C101_lognormal D hd (counter_sound hG) hl h h0 h1 (c := c) (b := b)

/-- C106, uniform_int_dist: the fraction of the calls in which the samples are v_0, ..., v_(n-1) is the product of the probabilities. -/
theorem C106_uniform_int (hG : G.Sound) (hT : StreamsNearly G es T η) {a b : ℤ} (ha : -2 ^ 31 ≤ a) (hb : b ≤ 2 ^ 31 - 1) (hab : a < b) (hd : b - a ≤ 2 ^ 31 - 1) :
    ∃ P, IntParam.mk' a b = some P ∧ IntegerStreams (P.sample float64 G) es T a (uniformInt a b) (n * (5e-15 + 14 / (G.max - G.min : ℝ)) + η) := by
  obtain ⟨P, hP, -⟩ := C102_uniform_int (counter_sound hG) counter_equi ha hb hab hd
  obtain ⟨-, s2, s3⟩ := uniformInt_sum hab
  refine ⟨P, hP, integers_nearly_of (S := fun _ G => P.sample float64 G)
    (one_co fun u => (toInteger (-2 ^ 31) (2 ^ 31 - 1) (float64.rnd (float64.rnd P.d * u))).bind fun k => int32 (k + P.a)) hG hT s3 s2 fun h => ?_⟩
  obtain ⟨Q, hQ, h⟩ := C102_uniform_int (counter_sound hG) h ha hb hab hd
  rw [hP] at hQ
  rw [Option.some.inj hQ]
  exact h

/-- C106, `r(x)` of the engines. -/
theorem C106_bounded_int (hG : G.Sound) (hT : StreamsNearly G es T η) {x : ℤ} (h1 : 1 ≤ x) (h2 : x ≤ 2 ^ 63 - 1) :
    IntegerStreams (fun s => boundedInt float64 G s x) es T 0 (uniformInt 0 x) (n * (5e-15 + 14 / (G.max - G.min : ℝ)) + η) := by
  obtain ⟨-, s2, s3⟩ := uniformInt_sum (show 0 < x by omega)
  exact integers_nearly_of (S := fun _ G s => boundedInt float64 G s x)
    (one_co fun u => toInteger (-2 ^ 63) (2 ^ 63 - 1) (float64.rnd (u * float64.rnd x))) hG hT s3 s2 fun h => C102_bounded_int (counter_sound hG) h h1 h2

/-- C106, discrete_dist with the weights of C102. -/
theorem C106_discrete (hG : G.Sound) (hT : StreamsNearly G es T η) (m : List ℕ) (z : ℤ) (h0 : 0 < m.sum) (hs : m.sum ≤ 2 ^ 53) :
    ∃ W, WTree.construct float64.rnd (m.map fun n : ℕ => (n : ℚ) * 2 ^ z) = some W ∧
      IntegerStreams (W.sample float64 G) es T 0 (weighted m) (n * (5e-15 + 14 / (G.max - G.min : ℝ)) + η) := by
  obtain ⟨W, hW, h⟩ := C72_discrete_float_partial float64_nearest (by decide) (counter_sound hG) m z h0 hs
  have hN : W.N ≠ 0 := by
    intro hN
    obtain ⟨k, -, hk, -⟩ := h 0
    rw [WTree.sample, if_pos hN] at hk
    have := Option.some.inj hk
    omega
  obtain ⟨-, s2, s3⟩ := weighted_sum m h0
  refine ⟨W, hW, integers_nearly_of (S := fun _ G => W.sample float64 G) ⟨fun τ G hG s => ?_, fun τ ρ G H hG hH hm hM s t h => ?_⟩ hG hT s3 s2 fun h => ?_⟩
  · simp only [WTree.sample, if_neg hN]; exact (calls_one (F := float64) (by decide) hG s).2.2.2
  · simp only [WTree.sample, if_neg hN, (deviates hG hm hM h).2.2.2]
  · obtain ⟨Q, hQ, h⟩ := C102_discrete (counter_sound hG) h m z h0 hs
    rw [hW] at hQ
    rw [Option.some.inj hQ]
    exact h

/-- C106, geometric_dist. -/
theorem C106_geometric (D : DoubleWithin M d) (hd : d ≤ 2 ^ (-50 : ℤ)) (hG : G.Sound) (hl : (G.min, G.max) ∈ libraryRanges) (hT : StreamsNearly G es T η)
    {p : ℝ} (p0 : 1e-6 ≤ p) (p1 : p ≤ 1 - 2 ^ (-53 : ℤ)) :
    IntegerStreams (geometricSample M (fin p) G) es T 0 (Spec.geometric p) (n * (1e-13 + 1.1e-14 / p + 14 / (G.max - G.min : ℝ)) + η) := by
  have h53 : (0 : ℝ) < 2 ^ (-53 : ℤ) := by positivity
  obtain ⟨-, s2, s3⟩ := geometric_sum (p := p) (by linarith) (by linarith)
  exact integers_nearly_of (S := fun _ G => geometricSample M (fin p) G) (one_oo fun u => Rounded.geometricDraw M (Rounded.geometric M (fin p)) (fin (u : ℝ))) hG hT s3 s2
    fun h => C102_geometric D hd (counter_sound hG) hl h p0 p1

/-- C106, binomial_dist with at most 10^6 trials. -/
theorem C106_binomial (D : DoubleWithin M d) (hd : d ≤ 2 ^ (-50 : ℤ)) (hG : G.Sound) (hl : (G.min, G.max) ∈ libraryRanges) (hT : StreamsNearly G es T η)
    {p : ℝ} (p0 : 2 ^ (-53 : ℤ) ≤ p) (p1 : p ≤ 1 - 2 ^ (-53 : ℤ)) {m : ℕ} (hm : m ≤ 1000000) :
    IntegerStreams (binomialSample M (fin p) m G) es T 0 (Spec.binomial p m) (n * (6e-16 * m ^ 2 + 3e-13 * m + 1.1e-14 + 14 / (G.max - G.min : ℝ)) + η) := by
  have h53 : (0 : ℝ) < 2 ^ (-53 : ℤ) := by positivity
  obtain ⟨-, s2, s3⟩ := binomial_sum (p := p) (by linarith) (by linarith) m
  exact integers_nearly_of (S := fun _ G => binomialSample M (fin p) m G) (one_oo fun u => (Rounded.binomial M (fin p) m).draw (fin (u : ℝ))) hG hT s3 s2
    fun h => C102_binomial D hd (counter_sound hG) hl h p0 p1 hm

open scoped Nat in
/-- C106, hypergeometric_dist with the parameters of C102. -/
theorem C106_hypergeometric (D : DoubleWithin M d) (hd : d ≤ 2 ^ (-50 : ℤ)) (hg : ∀ k : ℕ, k ≤ 900 → Close d (M.lnGamma (fin (k + 1))) (Real.log (k ! : ℕ)))
    (hG : G.Sound) (hl : (G.min, G.max) ∈ libraryRanges) (hT : StreamsNearly G es T η) {N m : ℕ} (hm : m ≤ N) (hN : N ≤ 900) :
    IntegerStreams (hypergeometricSample M N m m G) es T (max 0 (2 * m - N : ℤ)) (Spec.hypergeometric N m m)
      (n * (9e-14 * N + 1.2e-14 + 14 / (G.max - G.min : ℝ)) + η) := by
  obtain ⟨-, s2, s3⟩ := hyper_sum hm
  have hlo : max 0 (2 * m - N : ℤ) = (hgMin N m m : ℤ) := by rw [hgMin]; omega
  exact integers_nearly_of (S := fun _ G => hypergeometricSample M N m m G) (one_oo fun u => (Rounded.hypergeometric M N m m).draw (fin (u : ℝ))) hG hT s3
    (by rw [hlo]; exact s2) fun h => C102_hypergeometric D hd hg (counter_sound hG) hl h hm hN

open Classical in
/-- C106, bernoulli_dist: the fraction of the calls in which the n engines give given heads and tails is the product of the probabilities. -/
theorem C106_bernoulli {τ : Type} (P : BernoulliParam τ) (hne : P.head ≠ P.tail) (h0 : 0 ≤ P.p) (h1 : P.p ≤ 1) (hG : G.Sound) (hT : StreamsNearly G es T η)
    (v : Fin n → Bool) :
    |(((Finset.range T).filter fun k => ∀ i : Fin n, nth (P.sample float64 G) (es i) k = if v i then P.head else P.tail).card : ℝ) / T -
      ∏ i, (if v i then (P.p : ℝ) else 1 - P.p)| ≤ n * (4e-15 + 14 / (G.max - G.min : ℝ)) + η := by
  have g0 : (0 : ℝ) ≤ P.p := by exact_mod_cast h0
  have g1 : (P.p : ℝ) ≤ 1 := by exact_mod_cast h1
  have hF := C102_bernoulli P hne h0 h1 (counter_sound hG) counter_equi
  have hS : OneCall fun σ (G : Gen σ) => P.sample float64 G := one_co fun u => if u < P.p then P.head else P.tail
  refine le_trans (nearly_general hS hG hT
    (fun i x => x = if v i then P.head else P.tail) (fun i => if v i then (P.p : ℝ) else 1 - P.p) (fun i => by split_ifs <;> constructor <;> linarith)
    (δ := 4e-15 + 13 / (G.max - G.min : ℝ) + 1 / ((G.max - G.min + 1 : ℕ) : ℝ)) fun i => ?_) (nearly_bound hG)
  by_cases hv : v i = true
  · simp only [hv, if_true]
    exact hF.2
  · simp only [hv, Bool.false_eq_true, if_false]
    have hN : (0 : ℝ) < ((G.max - G.min + 1 : ℕ) : ℝ) := by positivity
    have hc := Finset.card_filter_add_card_filter_not (s := Finset.range (G.max - G.min + 1))
      (fun k => nth (P.sample float64 (counter G.min G.max)) 0 k = P.head)
    have he : ((Finset.range (G.max - G.min + 1)).filter fun k => ¬ nth (P.sample float64 (counter G.min G.max)) 0 k = P.head) =
        (Finset.range (G.max - G.min + 1)).filter fun k => nth (P.sample float64 (counter G.min G.max)) 0 k = P.tail :=
      Finset.filter_congr fun k _ => ⟨fun h => (hF.1 k).resolve_left h, fun h h' => hne (h'.symm.trans h)⟩
    rw [he, Finset.card_range] at hc
    have h2 := hF.2
    have hc' : (((Finset.range (G.max - G.min + 1)).filter fun k => nth (P.sample float64 (counter G.min G.max)) 0 k = P.tail).card : ℝ) =
        ((G.max - G.min + 1 : ℕ) : ℝ) - ((Finset.range (G.max - G.min + 1)).filter fun k => nth (P.sample float64 (counter G.min G.max)) 0 k = P.head).card := by
      rw [eq_sub_iff_add_eq, add_comm]; exact_mod_cast hc
    rw [hc', sub_div, div_self hN.ne', sub_sub_sub_cancel_left, abs_sub_comm]
    exact h2

/-! ### Examples -/

/-- What the parameters of C106 are for a single engine. -/
theorem one_sqrt (K : Kind) (hK : K = .k3s ∨ K = .k5s) : 1 / √((K.modulus : ℝ) ^ (K.order - 1)) = 1 / (K.modulus : ℝ) ^ ((K.order - 1) / 2) := by
  rcases hK with rfl | rfl
  · rw [show (Kind.k3s.modulus : ℝ) ^ (Kind.k3s.order - 1) = ((Kind.k3s.modulus : ℝ) ^ ((Kind.k3s.order - 1) / 2)) ^ 2 by rw [← pow_mul]; rfl, Real.sqrt_sq (by positivity)]
  · rw [show (Kind.k5s.modulus : ℝ) ^ (Kind.k5s.order - 1) = ((Kind.k5s.modulus : ℝ) ^ ((Kind.k5s.order - 1) / 2)) ^ 2 by rw [← pow_mul]; rfl, Real.sqrt_sq (by positivity)]

open MRG in
/-- C106: exponential samples with the default yarn3s, over its period. -/
theorem C106_yarn3s_default : StreamsFollow (sampleOC (exponential doubleMachine (fin 3)) (yarnGen .k3s)) (fun _ : Fin 1 => ⟨init .k3s, init_inRange .k3s⟩)
    ((Kind.modulus .k3s ^ Kind.order .k3s - 1) / 2) (exponentialLaw 3) ((1 : ℕ) * (1e-13 + 14 / ((yarnGen .k3s).max - (yarnGen .k3s).min : ℝ)) + 1 / 2147462579) := by
  have h := (C106_successive .k3s (l := [2025213985, 1112953677, 2038969601]) (by decide) ⟨init .k3s, init_inRange .k3s⟩
    (by intro i; revert i; decide) ⟨⟨1, by decide⟩, by decide⟩ (d := 1) (by decide) (by decide)).2
  rw [one_sqrt .k3s (Or.inl rfl), show (Kind.modulus .k3s : ℝ) ^ ((Kind.order .k3s - 1) / 2) = 2147462579 by
    rw [show (Kind.order .k3s - 1) / 2 = 1 from rfl, pow_one]; norm_num [Kind.modulus]] at h
  have e : (fun i : Fin 1 => afterCalls (mrgGen .k3s).call i.val ⟨init .k3s, init_inRange .k3s⟩) = fun _ => ⟨init .k3s, init_inRange .k3s⟩ := funext fun i => by
    rw [Subsingleton.elim i 0]; rfl
  rw [e] at h
  exact C106_exponential C100_machine (by norm_num) (yarn_sound .k3s) h (by norm_num) (by norm_num)

open MRG in
/-- Four streams of the default mrg5s, all together: exponential samples with the first three. -/
example : ∃ E : Fin 3 → {e : MRG (Kind.order .k5s) // InRange (Kind.modulus .k5s) e},
    (∀ u, split (Kind.modulus .k5s) (init .k5s) 4 (BitVec.ofNat 32 (0 + u.val)) = .ok (E u).1) ∧
    StreamsFollow (sampleOC (exponential doubleMachine (fin 3)) (mrgGen .k5s)) E ((Kind.modulus .k5s ^ Kind.order .k5s - 1) / 2) (exponentialLaw 3)
      ((3 : ℕ) * (1e-13 + 14 / ((mrgGen .k5s).max - (mrgGen .k5s).min : ℝ)) + 1 / √((Kind.modulus .k5s : ℝ) ^ (Kind.order .k5s - 3))) := by
  obtain ⟨E, h, h1, -⟩ := C106_split .k5s (l := [1053223373, 1530818118, 1612122482, 133497989, 573245311]) (by decide) ⟨init .k5s, init_inRange .k5s⟩
    (by intro i; revert i; decide) ⟨⟨1, by decide⟩, by decide⟩ 4 (by decide) (i := 0) (d := 3) (by decide) (by decide) (by decide)
  exact ⟨E, h, C106_exponential C100_machine (by norm_num) (mrg_sound .k5s) h1 (by norm_num) (by norm_num)⟩

end Trng.Props
