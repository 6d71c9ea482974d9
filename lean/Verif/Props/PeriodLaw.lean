import Verif.Proofs.PeriodChain
import Verif.Proofs.PeriodEngines
import Verif.Props.RoundedInverse

/-! Property C101: over a full period of an engine the samples of continuous distributions of type `double` follow their law. -/
namespace Trng.Props
open XR Spec Rounded PeriodLaw Trng.Uniform FP

/-! ### The engines -/

/-- C101: lcg64 and lcg64_shift return every number equally often over a period. -/
theorem C101_lcg64 (e : LCG64) (ha : e.P.a.toNat % 4 = 1) (hb : e.P.b.toNat % 2 = 1) :
    Equidistributed (gen64 LCG64.call) e (2 ^ 64) ∧ Equidistributed (gen64 LCG64.callShift) e (2 ^ 64) :=
  ⟨gen64_equi (c := 1) (by norm_num) (by norm_num) fun v => once_card (C08_lcg64_each_value_once e ha hb v),
    gen64_equi (c := 1) (by norm_num) (by norm_num) fun v => once_card (C08_lcg64_shift_each_value_once e ha hb v)⟩

example : Equidistributed (gen64 LCG64.call) ⟨LCG64.Default, 0⟩ (2 ^ 64) := (C101_lcg64 _ (by decide) (by decide)).1

/-- C101: so does lcg64_count_shift. -/
theorem C101_lcg64_count_shift (e : LCG64Count) (hc : e.count.toNat < 2 ^ 61 - 1) (hi : e.P.inc.toNat < 2 ^ 61 - 1) (hi0 : e.P.inc.toNat ≠ 0)
    (ha : e.P.a.toNat % 4 = 1) (hb : e.P.b.toNat % 2 = 1) : Equidistributed (gen64 LCG64Count.call) e (2 ^ 64 * (2 ^ 61 - 1)) :=
  gen64_equi (c := 2 ^ 61 - 1) (by norm_num) (by norm_num) fun v => (C92_count_shift_uniform e hc hi hi0 ha hb v).le

example : Equidistributed (gen64 LCG64Count.call) (LCG64Count.ofParam LCG64Count.Default) (2 ^ 64 * (2 ^ 61 - 1)) :=
  C101_lcg64_count_shift _ (by decide) (by decide) (by decide) (by decide) (by decide)

/-- C101: so does count128_lcg_shift. -/
theorem C101_count128 (e : Count128) (h : e.P.increment.toNat % 2 = 1) (ha : e.P.a.toNat % 2 = 1) :
    Equidistributed (gen64 Count128.call) e (2 ^ 128) :=
  gen64_equi (c := 2 ^ 64) (by norm_num) (by norm_num) fun v => (C92_count128_uniform e h ha v).le

example : Equidistributed (gen64 Count128.call) (Count128.ofParam Count128.Default) (2 ^ 128) :=
  C101_count128 _ (by decide +kernel) (by decide +kernel)

/-- C101: so does xoshiro256plus, from every state that is not zero. -/
theorem C101_xoshiro (e : Xoshiro) (he : e ≠ ⟨0, 0, 0, 0⟩) : Equidistributed (gen64 Xoshiro.call) e (2 ^ 256 - 1) :=
  gen64_equi (c := 2 ^ 64 * (2 ^ 64 * 2 ^ 64)) (by norm_num) (by norm_num) fun v =>
    xoshiro_count' e (fun x => x.isLt) (xoshiro_inj e he) v

example : Equidistributed (gen64 Xoshiro.call) Xoshiro.default (2 ^ 256 - 1) := C101_xoshiro _ (by decide)

/-- C101: minstd returns every number from `min()` to `max()` equally often over a period. -/
theorem C101_minstd (e : {e : Minstd // e.Valid}) : minstdGen.Sound ∧ Equidistributed minstdGen e (2 ^ 31 - 2) := ⟨minstd_sound, minstd_equi e⟩

example : Equidistributed minstdGen ⟨Minstd.seed ⟨1⟩ 123456789#64, by decide⟩ (2 ^ 31 - 2) := (C101_minstd _).2

open MRG in
/-- C101: so do the mrg and yarn engines with the parameter sets of full period, from every state that is not zero (0 once less than the others). -/
theorem C101_mrg_yarn (K : Kind) {l : List Int} (hl : l ∈ fullPeriod K) (e : {e : MRG K.order // InRange K.modulus e}) (hu : Uses e.1 l) (hz : NonZero e.1) :
    ((mrgGen K).Sound ∧ Equidistributed (mrgGen K) e (K.modulus ^ K.order - 1)) ∧
    ((yarnGen K).Sound ∧ Equidistributed (yarnGen K) e (K.modulus ^ K.order - 1)) :=
  ⟨⟨mrg_sound K, mrg_equi K hl e hu hz⟩, yarn_sound K, yarn_equi K hl e hu hz⟩

open MRG in
/-- The default yarn3. -/
theorem yarn3_equi : Equidistributed (yarnGen .k3) ⟨init .k3, init_inRange .k3⟩ (Kind.modulus .k3 ^ Kind.order .k3 - 1) :=
  (C101_mrg_yarn .k3 (l := [2021422057, 1826992351, 1977753457]) (by decide) ⟨init .k3, init_inRange .k3⟩
    (by intro i; revert i; decide) ⟨⟨1, by decide⟩, by decide⟩).2.2

open MT in
/-- C101: so do the Mersenne Twisters. -/
theorem C101_mt19937 (e : {e : MT mt19937 // 0 ≤ e.mti}) (h1 : 1 ≤ e.1.mti)
    (hl : ∃ (i : Fin 624) (j : Nat), (e.1.mt i).getLsbD j = true ∧ (i.val ≠ 0 ∨ 31 ≤ j)) :
    (mtGen mt19937).Sound ∧ Equidistributed (mtGen mt19937) e (2 ^ 19937 - 1) :=
  ⟨mt_sound (by norm_num) (by norm_num) _, mt32_equi e h1 hl⟩

open MT in
/-- C101: mt19937_64. -/
theorem C101_mt19937_64 (e : {e : MT mt19937_64 // 0 ≤ e.mti}) (h1 : 1 ≤ e.1.mti)
    (hl : ∃ (i : Fin 312) (j : Nat), (e.1.mt i).getLsbD j = true ∧ (i.val ≠ 0 ∨ 31 ≤ j)) :
    (mtGen mt19937_64).Sound ∧ Equidistributed (mtGen mt19937_64) e (2 ^ 19937 - 1) :=
  ⟨mt_sound (by norm_num) (by norm_num) _, mt64_equi e h1 hl⟩

/-- The states of C75, in which a single bit is set. -/
example : Equidistributed (mtGen MT.mt19937) ⟨⟨624, fun i => if i.val = 0 then 0x80000000#32 else 0⟩, by decide⟩ (2 ^ 19937 - 1) :=
  (C101_mt19937 _ (by decide) ⟨⟨0, by decide⟩, 31, by decide, by decide⟩).2

/-- What is assumed of an engine in the theorems on distributions: the ranges of the engines above are among those of the library. -/
theorem C101_ranges (K : Kind) {σ : Type} (call : σ → BitVec 64 × σ) :
    (gen64 call).Sound ∧ ((gen64 call).min, (gen64 call).max) ∈ libraryRanges ∧ (minstdGen.min, minstdGen.max) ∈ libraryRanges ∧
    ((mrgGen K).min, (mrgGen K).max) ∈ libraryRanges ∧ ((yarnGen K).min, (yarnGen K).max) ∈ libraryRanges ∧
    ((mtGen MT.mt19937).min, (mtGen MT.mt19937).max) ∈ libraryRanges ∧ ((mtGen MT.mt19937_64).min, (mtGen MT.mt19937_64).max) ∈ libraryRanges := by
  refine ⟨gen64_sound call, ?_, ?_, (modulus_facts K).2.2.1, (modulus_facts K).2.2.1, ?_, ?_⟩
  · show (0, 2 ^ 64 - 1) ∈ libraryRanges; decide
  · show (1, 2147483646) ∈ libraryRanges; decide
  · show (0, 2 ^ 32 - 1) ∈ libraryRanges; decide
  · show (0, 2 ^ 64 - 1) ∈ libraryRanges; decide

/-! ### The distributions -/

variable {σ : Type} {M : Machine} {d : ℝ} {G : Gen σ} {e : σ} {T : ℕ}

/-- C101, exponential_dist<double>: over a period of an engine that returns every number equally often, with `double` arithmetic and a C library of
relative error at most 2⁻⁵⁰, every sample is a number, and for every t the fraction of samples up to t is the probability 1 - exp(-t/mu), up to
1e-13, 13 divided by the length of the engine's range, and 1/T. -/
theorem C101_exponential (D : DoubleWithin M d) (hd : d ≤ 2 ^ (-50 : ℤ)) (hG : G.Sound) (hE : Equidistributed G e T) {mu : ℝ}
    (h0 : 1e-200 ≤ mu) (h1 : mu ≤ 1e200) :
    FollowsUpTo (sampleOC (exponential M (fin mu)) G) e T (exponentialLaw mu) (1e-13 + 13 / (G.max - G.min : ℝ) + 1 / T) := by
  have hm : 0 < mu := lt_of_lt_of_le (by norm_num) h0
  refine FollowsUpTo.mono (of_oc D.rnd hG hE (exponential_law hm).1 (exponential_law hm).2 (ε := 5e-14) (by norm_num)
    fun u _ u0 u1 => exponential_value D (hd.trans (by norm_num)) h0 h1 u0 u1) ?_
  linarith

/-- Exponential samples of the default lcg64, over its period. -/
example : FollowsUpTo (sampleOC (exponential doubleMachine (fin 3)) (gen64 LCG64.call)) ⟨LCG64.Default, 0⟩ (2 ^ 64) (exponentialLaw 3) 1.1e-13 := by
  refine FollowsUpTo.mono (C101_exponential C100_machine (by norm_num) (gen64_sound _) (C101_lcg64 _ (by decide) (by decide)).1 (by norm_num) (by norm_num)) ?_
  have e1 : ((gen64 LCG64.call).max : ℝ) - (gen64 LCG64.call).min = 18446744073709551615 := by
    have a : (gen64 LCG64.call).max = 18446744073709551615 := rfl
    have b : (gen64 LCG64.call).min = 0 := rfl
    rw [a, b]; norm_num
  rw [e1]
  norm_num

/-- C101, twosided_exponential_dist<double>. -/
theorem C101_twosided (D : DoubleWithin M d) (hd : d ≤ 2 ^ (-50 : ℤ)) (hG : G.Sound) (hl : (G.min, G.max) ∈ libraryRanges) (hE : Equidistributed G e T)
    {mu : ℝ} (h0 : 1e-200 ≤ mu) (h1 : mu ≤ 1e200) :
    FollowsUpTo (sampleOO (twosidedExponential M (fin mu)) G) e T (twosidedLaw mu) (1e-13 + 13 / (G.max - G.min : ℝ) + 1 / T) := by
  have hm : 0 < mu := lt_of_lt_of_le (by norm_num) h0
  refine FollowsUpTo.mono (of_oo D.rnd hG hE (twosided_law hm).1 (twosided_law hm).2 (ε := 6e-14) (by norm_num) hl
    fun u hR u0 u1 => twosided_value D (hd.trans (by norm_num)) h0 h1 hR u0 u1) ?_
  linarith

example : FollowsUpTo (sampleOO (twosidedExponential doubleMachine (fin 3)) (yarnGen .k3)) ⟨MRG.init .k3, MRG.init_inRange .k3⟩
    (Kind.modulus .k3 ^ Kind.order .k3 - 1) (twosidedLaw 3)
    (1e-13 + 13 / (((yarnGen .k3).max : ℝ) - ((yarnGen .k3).min : ℝ)) + 1 / ((Kind.modulus .k3 ^ Kind.order .k3 - 1 : ℕ) : ℝ)) :=
  C101_twosided C100_machine (by norm_num) (yarn_sound .k3) (modulus_facts .k3).2.2.1 yarn3_equi (by norm_num) (by norm_num)

/-- C101, logistic_dist<double>: the rounding of the shift by `eta` adds an error proportional to `eta/theta`. -/
theorem C101_logistic (D : DoubleWithin M d) (hd : d ≤ 2 ^ (-50 : ℤ)) (hG : G.Sound) (hl : (G.min, G.max) ∈ libraryRanges) (hE : Equidistributed G e T)
    {theta eta : ℝ} (h0 : 1e-200 ≤ theta) (h1 : theta ≤ 1e200) (he : |eta| ≤ 1e200) :
    FollowsUpTo (sampleOO (logistic M (fin theta) (fin eta)) G) e T (logisticLaw theta eta)
      (1e-13 + 1.2e-16 * (|eta| / theta) + 13 / (G.max - G.min : ℝ) + 1 / T) := by
  have hm : 0 < theta := lt_of_lt_of_le (by norm_num) h0
  have : 0 ≤ |eta| / theta := by positivity
  refine FollowsUpTo.mono (of_oo D.rnd hG hE (logistic_law hm).1 (logistic_law hm).2 (ε := 7e-14 + 1.2e-16 * (|eta| / theta)) (by linarith) hl
    fun u hR u0 u1 => logistic_value D (hd.trans (by norm_num)) h0 h1 he hR u0 u1) ?_
  linarith

/-- C101, extreme_value_dist<double>. -/
theorem C101_extreme_value (D : DoubleWithin M d) (hd : d ≤ 2 ^ (-50 : ℤ)) (hG : G.Sound) (hl : (G.min, G.max) ∈ libraryRanges) (hE : Equidistributed G e T)
    {theta eta : ℝ} (h0 : 1e-200 ≤ theta) (h1 : theta ≤ 1e200) (he : |eta| ≤ 1e200) :
    FollowsUpTo (sampleOO (extremeValue M (fin theta) (fin eta)) G) e T (extremeValueLaw theta eta)
      (1e-13 + 1.2e-16 * (|eta| / theta) + 13 / (G.max - G.min : ℝ) + 1 / T) := by
  have hm : 0 < theta := lt_of_lt_of_le (by norm_num) h0
  have : 0 ≤ |eta| / theta := by positivity
  refine FollowsUpTo.mono (of_oo_rev D.rnd hG hE (extreme_law hm).1 (extreme_law hm).2 (ε := 7e-14 + 1.2e-16 * (|eta| / theta)) (by linarith) hl
    fun u hR u0 u1 => extreme_value D (hd.trans (by norm_num)) h0 h1 he hR u0 u1) ?_
  linarith

/-- C101, rayleigh_dist<double>. -/
theorem C101_rayleigh (D : DoubleWithin M d) (hd : d ≤ 2 ^ (-50 : ℤ)) (hG : G.Sound) (hl : (G.min, G.max) ∈ libraryRanges) (hE : Equidistributed G e T)
    {nu : ℝ} (h0 : 1e-200 ≤ nu) (h1 : nu ≤ 1e200) :
    FollowsUpTo (sampleOO (rayleigh M (fin nu)) G) e T (rayleighLaw nu) (1e-13 + 13 / (G.max - G.min : ℝ) + 1 / T) := by
  have hm : 0 < nu := lt_of_lt_of_le (by norm_num) h0
  refine FollowsUpTo.mono (of_oo D.rnd hG hE (rayleigh_law hm).1 (rayleigh_law hm).2 (ε := 7e-14) (by norm_num) hl
    fun u hR u0 u1 => rayleigh_value D (hd.trans (by norm_num)) h0 h1 hR u0 u1) ?_
  linarith

/-- C101, normal_dist<double>. -/
theorem C101_normal (D : DoubleWithin M d) (hd : d ≤ 2 ^ (-50 : ℤ)) (hG : G.Sound) (hl : (G.min, G.max) ∈ libraryRanges) (hE : Equidistributed G e T)
    {c k b mu sigma : ℝ} (h0 : 1e-200 ≤ sigma) (h1 : sigma ≤ 1e200) (he : |mu| ≤ 1e200) :
    FollowsUpTo (sampleOO (Rounded.normal M (invPhiDouble M) c k b (fin mu) (fin sigma)) G) e T (normalLaw mu sigma)
      (5e-12 + 1.2e-16 * (|mu| / sigma) + 13 / (G.max - G.min : ℝ) + 1 / T) := by
  have hm : 0 < sigma := lt_of_lt_of_le (by norm_num) h0
  have : 0 ≤ |mu| / sigma := by positivity
  refine FollowsUpTo.mono (of_oo D.rnd hG hE (normal_law hm).1 (normal_law hm).2 (ε := 4e-12 + 1.2e-16 * (|mu| / sigma)) (by linarith) hl
    fun u hR u0 u1 => PeriodLaw.normal_value D (hd.trans (by norm_num)) h0 h1 he hR u0 u1) ?_
  linarith

/-- C101, uniform01_dist<double>. -/
theorem C101_uniform01 (hG : G.Sound) (hE : Equidistributed G e T) :
    FollowsUpTo (sampleCO uniform01Dist G) e T (uniformLaw 0 1) (4e-15 + 13 / (G.max - G.min : ℝ) + 1 / T) := by
  refine FollowsUpTo.mono (of_co hG hE (uniform_law one_pos).1 (uniform_law one_pos).2 (ε := 0) le_rfl fun u h0 h1 => ⟨u, rfl, ?_⟩) (by linarith)
  rw [clamp_law one_pos]
  refine (clamp_close h0 h1.le).trans ?_
  simp

/-- C101, uniform_dist<double> from `a` to `b`. -/
theorem C101_uniform (D : DoubleWithin M d) (hG : G.Sound) (hE : Equidistributed G e T) {a b : ℝ} (ha : |a| ≤ 1e200) (hb : |b| ≤ 1e200) (hab : 1e-200 ≤ b - a) :
    FollowsUpTo (sampleCO (Rounded.uniform M (fin a) (fin b)) G) e T (uniformLaw a b)
      (5e-15 + 1.2e-16 * (|a| / (b - a)) + 13 / (G.max - G.min : ℝ) + 1 / T) := by
  have h : 0 < b - a := lt_of_lt_of_le (by norm_num) hab
  have : 0 ≤ |a| / (b - a) := by positivity
  refine FollowsUpTo.mono (of_co hG hE (uniform_law (by linarith)).1 (uniform_law (by linarith)).2 (ε := 6e-16 + 1.2e-16 * (|a| / (b - a))) (by linarith)
    fun u h0 h1 => uniform_value D ha hb hab h0 h1) ?_
  linarith

/-- C101, tent_dist<double> from `m - w` to `m + w`. -/
theorem C101_tent (D : DoubleWithin M d) (hd : d ≤ 2 ^ (-50 : ℤ)) (hG : G.Sound) (hE : Equidistributed G e T)
    {m w : ℝ} (h0 : 1e-200 ≤ w) (h1 : w ≤ 1e200) (hm : |m| ≤ 1e200) :
    FollowsUpTo (sampleCC (Rounded.tent M (fin m) (fin w)) G) e T (tentLaw m w)
      (1e-13 + 2.4e-16 * (|m| / w) + 13 / (G.max - G.min : ℝ) + 1 / T) := by
  have hw : 0 < w := lt_of_lt_of_le (by norm_num) h0
  have : 0 ≤ |m| / w := by positivity
  refine FollowsUpTo.mono (of_cc hG hE (tent_law hw).1 (tent_law hw).2 (ε := 6e-14 + 2.4e-16 * (|m| / w)) (by linarith) D
    fun u u0 u1 u2 => tent_value D (hd.trans (by norm_num)) h0 h1 hm u0 u1 u2) ?_
  linarith

/-- C101, cauchy_dist<double>. -/
theorem C101_cauchy (D : DoubleWithin M d) (P : FunctionsWithin M d) (hd : d ≤ 2 ^ (-50 : ℤ)) (hG : G.Sound) (hl : (G.min, G.max) ∈ libraryRanges)
    (hE : Equidistributed G e T) {theta eta : ℝ} (h0 : 1e-100 ≤ theta) (h1 : theta ≤ 1e100) (he : |eta| ≤ 1e200) :
    FollowsUpTo (sampleOO (Rounded.cauchy M piDouble oneOverPiDouble (fin theta) (fin eta)) G) e T (cauchyLaw theta eta)
      (1e-14 + 1.2e-16 * (|eta| / theta) + 13 / (G.max - G.min : ℝ) + 1 / T) := by
  have hm : 0 < theta := lt_of_lt_of_le (by norm_num) h0
  have : 0 ≤ |eta| / theta := by positivity
  refine FollowsUpTo.mono (of_oo D.rnd hG hE (cauchy_law hm).1 (cauchy_law hm).2 (ε := 2e-15 + 1.2e-16 * (|eta| / theta)) (by linarith) hl
    fun u _ u0 u1 => cauchy_value D P (hd.trans (by norm_num)) h0 h1 he u0 u1) ?_
  linarith

/-- C101, pareto_dist<double>; the error grows with the exponent. -/
theorem C101_pareto (D : DoubleWithin M d) (P : FunctionsWithin M d) (hd : d ≤ 2 ^ (-50 : ℤ)) (hG : G.Sound) (hl : (G.min, G.max) ∈ libraryRanges)
    (hE : Equidistributed G e T) {gamma theta : ℝ} (g0 : 1 / 10 ≤ gamma) (g1 : gamma ≤ 1e15) (h0 : 1e-100 ≤ theta) (h1 : theta ≤ 1e100) :
    FollowsUpTo (sampleOO (Rounded.pareto M (fin gamma) (fin theta)) G) e T (paretoLaw gamma theta)
      (2e-14 + 3e-15 * gamma + 13 / (G.max - G.min : ℝ) + 1 / T) := by
  have hm : 0 < theta := lt_of_lt_of_le (by norm_num) h0
  have hg : 0 < gamma := by linarith
  refine FollowsUpTo.mono (of_oo_rev D.rnd hG hE (pareto_law hg hm).1 (pareto_law hg hm).2 (ε := 1e-14 + 2.9e-15 * gamma) (by linarith) hl
    fun u _ u0 u1 => pareto_value D P (hd.trans (by norm_num)) g0 g1 h0 h1 u0 u1) ?_
  linarith

/-- C101, powerlaw_dist<double>. -/
theorem C101_powerlaw (D : DoubleWithin M d) (P : FunctionsWithin M d) (hd : d ≤ 2 ^ (-50 : ℤ)) (hG : G.Sound)
    (hE : Equidistributed G e T) {gamma theta : ℝ} (g0 : 1 / 10 ≤ gamma) (g1 : gamma ≤ 1e15) (h0 : 1e-100 ≤ theta) (h1 : theta ≤ 1e100) :
    FollowsUpTo (sampleOC (Rounded.powerlaw M (fin gamma) (fin theta)) G) e T (powerlawLaw gamma theta)
      (2e-14 + 3e-15 * gamma + 13 / (G.max - G.min : ℝ) + 1 / T) := by
  have hm : 0 < theta := lt_of_lt_of_le (by norm_num) h0
  have hg : 0 < gamma := by linarith
  refine FollowsUpTo.mono (of_oc D.rnd hG hE (powerlaw_law hg hm).1 (powerlaw_law hg hm).2 (ε := 1e-14 + 2.3e-15 * gamma) (by linarith)
    fun u _ u0 u1 => powerlaw_value D P (hd.trans (by norm_num)) g0 g1 h0 h1 u0 u1) ?_
  linarith

/-- C101, weibull_dist<double>. -/
theorem C101_weibull (D : DoubleWithin M d) (P : FunctionsWithin M d) (hd : d ≤ 2 ^ (-50 : ℤ)) (hG : G.Sound)
    (hE : Equidistributed G e T) {theta beta : ℝ} (g0 : 1 / 10 ≤ beta) (g1 : beta ≤ 1e15) (h0 : 1e-100 ≤ theta) (h1 : theta ≤ 1e100) :
    FollowsUpTo (sampleOC (Rounded.weibull M (fin theta) (fin beta)) G) e T (weibullLaw theta beta)
      (2e-14 + 3e-15 * beta + 13 / (G.max - G.min : ℝ) + 1 / T) := by
  have hm : 0 < theta := lt_of_lt_of_le (by norm_num) h0
  have hg : 0 < beta := by linarith
  refine FollowsUpTo.mono (of_oc D.rnd hG hE (weibull_law hm hg).1 (weibull_law hm hg).2 (ε := 1e-14 + 2.3e-15 * beta) (by linarith)
    fun u hR u0 u1 => weibull_value D P (hd.trans (by norm_num)) g0 g1 h0 h1 hR u0 u1) ?_
  linarith

/-- C101, lognormal_dist<double>. -/
theorem C101_lognormal (D : DoubleWithin M d) (hd : d ≤ 2 ^ (-50 : ℤ)) (hG : G.Sound) (hl : (G.min, G.max) ∈ libraryRanges) (hE : Equidistributed G e T)
    {c b mu sigma : ℝ} (h0 : 1e-200 ≤ sigma) (h1 : |mu| + 39 * sigma ≤ 680) :
    FollowsUpTo (sampleOO (Rounded.lognormal M (invPhiDouble M) c b (fin mu) (fin sigma)) G) e T (lognormalLaw mu sigma)
      (5e-12 + 2e-15 / sigma + 1.2e-16 * (|mu| / sigma) + 13 / (G.max - G.min : ℝ) + 1 / T) := by
  have hm : 0 < sigma := lt_of_lt_of_le (by norm_num) h0
  have h2 : 0 ≤ |mu| / sigma := by positivity
  have h3 : 0 ≤ 2e-15 / sigma := by positivity
  refine FollowsUpTo.mono (of_oo D.rnd hG hE (lognormal_law hm).1 (lognormal_law hm).2 (ε := 4e-12 + 2e-15 / sigma + 1.2e-16 * (|mu| / sigma)) (by linarith) hl
    fun u hR u0 u1 => lognormal_value D (hd.trans (by norm_num)) h0 h1 hR u0 u1) ?_
  linarith

/-- C101: correctly rounded functions are as assumed. -/
theorem C101_functions : FunctionsWithin doubleMachine 1.2e-16 := functions_within

/-- Weibull samples of the default lcg64_shift, over its period. -/
example : FollowsUpTo (sampleOC (Rounded.weibull doubleMachine (fin 3) (fin (3 / 2))) (gen64 LCG64.callShift)) ⟨LCG64.Default, 0⟩ (2 ^ 64) (weibullLaw 3 (3 / 2)) 3e-14 := by
  refine FollowsUpTo.mono (C101_weibull C100_machine C101_functions (by norm_num) (gen64_sound _) (C101_lcg64 _ (by decide) (by decide)).2 (by norm_num) (by norm_num) (by norm_num) (by norm_num)) ?_
  have e1 : ((gen64 LCG64.callShift).max : ℝ) - (gen64 LCG64.callShift).min = 18446744073709551615 := by
    have a : (gen64 LCG64.callShift).max = 18446744073709551615 := rfl
    have b : (gen64 LCG64.callShift).min = 0 := rfl
    rw [a, b]; norm_num
  rw [e1]
  norm_num

/-- C101: without rounding the models of the uniform and log-normal distributions in floating-point arithmetic are those of C61 and C63. -/
theorem C101_exact (a b mu sigma : XR) (inv : XR → XR) :
    Rounded.uniform .exact a b = uniformDist a b ∧
    Rounded.lognormal .exact inv (1 / Real.sqrt 2) (1 / Real.sqrt (2 * Real.pi)) mu sigma = lognormalDist inv mu sigma := by
  constructor
  · simp only [Rounded.uniform, uniformDist, Machine.add, Machine.mul, Machine.div, Machine.sub, exact_round]
  · simp only [Rounded.lognormal, lognormalDist, Rounded.lognormalIcdf, Trng.lognormalIcdf, lognormalCdf, Machine.add, Machine.mul, Machine.div, Machine.sub,
      exact_round]; rfl

/-- The hypotheses are met by xoshiro256plus, correctly rounded functions and the parameters 10 and 3. -/
example : DoubleWithin doubleMachine 1.2e-16 ∧ (1.2e-16 : ℝ) ≤ 2 ^ (-50 : ℤ) ∧ (gen64 Xoshiro.call).Sound ∧
    ((gen64 Xoshiro.call).min, (gen64 Xoshiro.call).max) ∈ libraryRanges ∧ Equidistributed (gen64 Xoshiro.call) Xoshiro.default (2 ^ 256 - 1) ∧
    (1e-200 : ℝ) ≤ 3 ∧ (3 : ℝ) ≤ 1e200 ∧ |(10 : ℝ)| ≤ 1e200 :=
  ⟨C100_machine, by norm_num, gen64_sound _, (C101_ranges .k3 Xoshiro.call).2.1, C101_xoshiro _ (by decide), by norm_num, by norm_num,
    by norm_num [abs_of_pos]⟩

end Trng.Props
