import Verif.Proofs.Independence
import Verif.Props.PeriodLaw
import Verif.Props.PeriodDiscrete

/-! Property C104: over a full period of an engine successive samples of a distribution are independent, in as many dimensions as the numbers of
the engine are. -/
namespace Trng.Props
open XR Spec Rounded PeriodLaw Trng.Uniform FP Trng.Discrete Independence

/-! ### The engines -/

/-- C104: every triple of successive numbers of xoshiro256plus is equally frequent over a period (the triple of zeros once less), hence every pair. -/
theorem C104_xoshiro (e : Xoshiro) (h : e ≠ ⟨0, 0, 0, 0⟩) {n : ℕ} (hn : n ≤ 3) : TuplesEquidistributed (gen64 Xoshiro.call) e (2 ^ 256 - 1) n :=
  tuples_le (gen64_sound _) (xoshiro_tuples e h) hn

/-- The default object. -/
example : TuplesEquidistributed (gen64 Xoshiro.call) Xoshiro.default (2 ^ 256 - 1) 3 := C104_xoshiro _ (by decide) le_rfl

open MRG in
/-- C104: so are tuples of at most 2, ..., 5 successive numbers of the mrg and yarn engines of order 2, ..., 5 with the parameter sets of full period. -/
theorem C104_mrg_yarn (K : Kind) {l : List Int} (hl : l ∈ fullPeriod K) (e : {e : MRG K.order // InRange K.modulus e}) (hu : Uses e.1 l) (hz : NonZero e.1)
    {n : ℕ} (hn : n ≤ K.order) :
    TuplesEquidistributed (mrgGen K) e (K.modulus ^ K.order - 1) n ∧ TuplesEquidistributed (yarnGen K) e (K.modulus ^ K.order - 1) n :=
  ⟨tuples_le (mrg_sound K) (mrg_tuples K hl e hu hz) hn, tuples_le (yarn_sound K) (yarn_tuples K hl e hu hz) hn⟩

open MRG in
/-- The default yarn3. -/
theorem yarn3_tuples : TuplesEquidistributed (yarnGen .k3) ⟨init .k3, init_inRange .k3⟩ (Kind.modulus .k3 ^ Kind.order .k3 - 1) 3 :=
  (C104_mrg_yarn .k3 (l := [2021422057, 1826992351, 1977753457]) (by decide) ⟨init .k3, init_inRange .k3⟩
    (by intro i; revert i; decide) ⟨⟨1, by decide⟩, by decide⟩ (n := 3) le_rfl).2

open MT in
/-- C104: so are tuples of at most 623 numbers of mt19937. -/
theorem C104_mt19937 (e : {e : MT mt19937 // 0 ≤ e.mti}) (h1 : 1 ≤ e.1.mti)
    (hl : ∃ (i : Fin 624) (j : Nat), (e.1.mt i).getLsbD j = true ∧ (i.val ≠ 0 ∨ 31 ≤ j)) {n : ℕ} (hn : n ≤ 623) :
    TuplesEquidistributed (mtGen mt19937) e (2 ^ 19937 - 1) n :=
  tuples_le (mt_sound (by norm_num) (by norm_num) _) (mt32_tuples e h1 hl) hn

open MT in
/-- C104: and tuples of at most 311 numbers of mt19937_64. -/
theorem C104_mt19937_64 (e : {e : MT mt19937_64 // 0 ≤ e.mti}) (h1 : 1 ≤ e.1.mti)
    (hl : ∃ (i : Fin 312) (j : Nat), (e.1.mt i).getLsbD j = true ∧ (i.val ≠ 0 ∨ 31 ≤ j)) {n : ℕ} (hn : n ≤ 311) :
    TuplesEquidistributed (mtGen mt19937_64) e (2 ^ 19937 - 1) n :=
  tuples_le (mt_sound (by norm_num) (by norm_num) _) (mt64_tuples e h1 hl) hn

/-- The states of C75, in which a single bit is set. -/
example : TuplesEquidistributed (mtGen MT.mt19937) ⟨⟨624, fun i => if i.val = 0 then 0x80000000#32 else 0⟩, by decide⟩ (2 ^ 19937 - 1) 623 :=
  C104_mt19937 _ (by decide) ⟨⟨0, by decide⟩, 31, by decide, by decide⟩ le_rfl

/-- C104: tuples of one number are as in C101 and C102. -/
theorem C104_single {σ : Type} {G : Gen σ} {e : σ} {T : ℕ} : TuplesEquidistributed G e T 1 ↔ Equidistributed G e T := tuples_one

/-- C104: a period of 2^64 is too short for pairs, so lcg64 and lcg64_shift have no part in this. -/
theorem C104_lcg64_wrong (e : LCG64) : ¬ TuplesEquidistributed (gen64 LCG64.call) e (2 ^ 64) 2 ∧ ¬ TuplesEquidistributed (gen64 LCG64.callShift) e (2 ^ 64) 2 := by
  have key : ∀ call : LCG64 → BitVec 64 × LCG64, ¬ TuplesEquidistributed (gen64 call) e (2 ^ 64) 2 := by
    rintro call ⟨-, c, hc, hv⟩
    have e64 : (gen64 call).max - (gen64 call).min + 1 = 2 ^ 64 := by
      show 18446744073709551616 - 1 - 0 + 1 = 18446744073709551616
      norm_num
    rw [e64] at hc
    have h0 : c = 0 := by norm_num at hc; omega
    have := hv fun i => nth (gen64 call).call e (0 + i.val)
    rw [h0, Nat.le_zero, Finset.card_eq_zero, Finset.filter_eq_empty_iff] at this
    exact this (x := 0) (Finset.mem_range.2 (by norm_num)) fun i => rfl
  exact ⟨key _, key _⟩

/-! ### The distributions -/

variable {σ : Type} {M : Machine} {d : ℝ} {G : Gen σ} {e : σ} {T n : ℕ}

/-- C104, exponential_dist<double>: over a period of an engine with equally frequent tuples of n successive numbers, with `double` arithmetic and a C library
of relative error at most 2⁻⁵⁰, every sample is a number, and for all t_0, ..., t_(n-1) the fraction of positions from which on the samples are at most
t_0, ..., t_(n-1) is the product of the probabilities, up to n times the sum of 1e-13 and 14 divided by the length of the engine's range, and 1/T. -/
theorem C104_exponential (D : DoubleWithin M d) (hd : d ≤ 2 ^ (-50 : ℤ)) (hG : G.Sound) (hT : TuplesEquidistributed G e T n) {mu : ℝ}
    (h0 : 1e-200 ≤ mu) (h1 : mu ≤ 1e200) :
    JointlyFollow (sampleOC (exponential M (fin mu)) G) e T n (exponentialLaw mu) (n * (1e-13 + 14 / (G.max - G.min : ℝ)) + 1 / T) := by
  have hm : 0 < mu := lt_of_lt_of_le (by norm_num) h0
  exact joint_of (S := fun _ G => sampleOC (exponential M (fin mu)) G) (one_oc fun u => (exponential M (fin mu)).draw (fin (u : ℝ))) hG hT (exponential_law hm).2 fun h =>
    C101_exponential D hd (counter_sound hG) h h0 h1

/-- C104, twosided_exponential_dist<double>. -/
theorem C104_twosided (D : DoubleWithin M d) (hd : d ≤ 2 ^ (-50 : ℤ)) (hG : G.Sound) (hl : (G.min, G.max) ∈ libraryRanges) (hT : TuplesEquidistributed G e T n)
    {mu : ℝ} (h0 : 1e-200 ≤ mu) (h1 : mu ≤ 1e200) :
    JointlyFollow (sampleOO (twosidedExponential M (fin mu)) G) e T n (twosidedLaw mu) (n * (1e-13 + 14 / (G.max - G.min : ℝ)) + 1 / T) := by
  have hm : 0 < mu := lt_of_lt_of_le (by norm_num) h0
  exact joint_of (S := fun _ G => sampleOO (twosidedExponential M (fin mu)) G) (one_oo fun u => (twosidedExponential M (fin mu)).draw (fin (u : ℝ))) hG hT (twosided_law hm).2 fun h =>
    C101_twosided D hd (counter_sound hG) hl h h0 h1

/-- C104, logistic_dist<double>: the rounding of the shift by `eta` adds an error proportional to `eta/theta`. -/
theorem C104_logistic (D : DoubleWithin M d) (hd : d ≤ 2 ^ (-50 : ℤ)) (hG : G.Sound) (hl : (G.min, G.max) ∈ libraryRanges) (hT : TuplesEquidistributed G e T n)
    {theta eta : ℝ} (h0 : 1e-200 ≤ theta) (h1 : theta ≤ 1e200) (he : |eta| ≤ 1e200) :
    JointlyFollow (sampleOO (logistic M (fin theta) (fin eta)) G) e T n (logisticLaw theta eta) (n * (1e-13 + 1.2e-16 * (|eta| / theta) + 14 / (G.max - G.min : ℝ)) + 1 / T) := by
  have hm : 0 < theta := lt_of_lt_of_le (by norm_num) h0
  exact joint_of (S := fun _ G => sampleOO (logistic M (fin theta) (fin eta)) G) (one_oo fun u => (logistic M (fin theta) (fin eta)).draw (fin (u : ℝ))) hG hT (logistic_law hm).2 fun h =>
    C101_logistic D hd (counter_sound hG) hl h h0 h1 he

/-- C104, extreme_value_dist<double>. -/
theorem C104_extreme_value (D : DoubleWithin M d) (hd : d ≤ 2 ^ (-50 : ℤ)) (hG : G.Sound) (hl : (G.min, G.max) ∈ libraryRanges) (hT : TuplesEquidistributed G e T n)
    {theta eta : ℝ} (h0 : 1e-200 ≤ theta) (h1 : theta ≤ 1e200) (he : |eta| ≤ 1e200) :
    JointlyFollow (sampleOO (extremeValue M (fin theta) (fin eta)) G) e T n (extremeValueLaw theta eta) (n * (1e-13 + 1.2e-16 * (|eta| / theta) + 14 / (G.max - G.min : ℝ)) + 1 / T) := by
  have hm : 0 < theta := lt_of_lt_of_le (by norm_num) h0
  exact joint_of (S := fun _ G => sampleOO (extremeValue M (fin theta) (fin eta)) G) (one_oo fun u => (extremeValue M (fin theta) (fin eta)).draw (fin (u : ℝ))) hG hT (extreme_law hm).2 fun h =>
    C101_extreme_value D hd (counter_sound hG) hl h h0 h1 he

/-- C104, rayleigh_dist<double>. -/
theorem C104_rayleigh (D : DoubleWithin M d) (hd : d ≤ 2 ^ (-50 : ℤ)) (hG : G.Sound) (hl : (G.min, G.max) ∈ libraryRanges) (hT : TuplesEquidistributed G e T n)
    {nu : ℝ} (h0 : 1e-200 ≤ nu) (h1 : nu ≤ 1e200) :
    JointlyFollow (sampleOO (rayleigh M (fin nu)) G) e T n (rayleighLaw nu) (n * (1e-13 + 14 / (G.max - G.min : ℝ)) + 1 / T) := by
  have hm : 0 < nu := lt_of_lt_of_le (by norm_num) h0
  exact joint_of (S := fun _ G => sampleOO (rayleigh M (fin nu)) G) (one_oo fun u => (rayleigh M (fin nu)).draw (fin (u : ℝ))) hG hT (rayleigh_law hm).2 fun h =>
    C101_rayleigh D hd (counter_sound hG) hl h h0 h1

/-- C104, normal_dist<double>. -/
theorem C104_normal (D : DoubleWithin M d) (hd : d ≤ 2 ^ (-50 : ℤ)) (hG : G.Sound) (hl : (G.min, G.max) ∈ libraryRanges) (hT : TuplesEquidistributed G e T n)
    {c k b mu sigma : ℝ} (h0 : 1e-200 ≤ sigma) (h1 : sigma ≤ 1e200) (he : |mu| ≤ 1e200) :
    JointlyFollow (sampleOO (Rounded.normal M (invPhiDouble M) c k b (fin mu) (fin sigma)) G) e T n (normalLaw mu sigma) (n * (5e-12 + 1.2e-16 * (|mu| / sigma) + 14 / (G.max - G.min : ℝ)) + 1 / T) := by
  have hm : 0 < sigma := lt_of_lt_of_le (by norm_num) h0
  exact joint_of (S := fun _ G => sampleOO (Rounded.normal M (invPhiDouble M) c k b (fin mu) (fin sigma)) G) (one_oo fun u => (Rounded.normal M (invPhiDouble M) c k b (fin mu) (fin sigma)).draw (fin (u : ℝ))) hG hT (normal_law hm).2 fun h =>
    C101_normal D hd (counter_sound hG) hl h h0 h1 he (c := c) (k := k) (b := b)

/-- C104, uniform01_dist<double>. -/
theorem C104_uniform01 (hG : G.Sound) (hT : TuplesEquidistributed G e T n) :
    JointlyFollow (sampleCO uniform01Dist G) e T n (uniformLaw 0 1) (n * (4e-15 + 14 / (G.max - G.min : ℝ)) + 1 / T) := by
  exact joint_of (S := fun _ G => sampleCO uniform01Dist G) (one_co fun u => uniform01Dist.draw (fin (u : ℝ))) hG hT (uniform_law one_pos).2 fun h =>
    C101_uniform01 (counter_sound hG) h

/-- C104, uniform_dist<double> from `a` to `b`. -/
theorem C104_uniform (D : DoubleWithin M d) (hG : G.Sound) (hT : TuplesEquidistributed G e T n) {a b : ℝ} (ha : |a| ≤ 1e200) (hb : |b| ≤ 1e200) (hab : 1e-200 ≤ b - a) :
    JointlyFollow (sampleCO (Rounded.uniform M (fin a) (fin b)) G) e T n (uniformLaw a b) (n * (5e-15 + 1.2e-16 * (|a| / (b - a)) + 14 / (G.max - G.min : ℝ)) + 1 / T) := by
  have h : 0 < b - a := lt_of_lt_of_le (by norm_num) hab
  exact joint_of (S := fun _ G => sampleCO (Rounded.uniform M (fin a) (fin b)) G) (one_co fun u => (Rounded.uniform M (fin a) (fin b)).draw (fin (u : ℝ))) hG hT (uniform_law (by linarith)).2 fun h =>
    C101_uniform D (counter_sound hG) h ha hb hab

/-- C104, tent_dist<double> from `m - w` to `m + w`. -/
theorem C104_tent (D : DoubleWithin M d) (hd : d ≤ 2 ^ (-50 : ℤ)) (hG : G.Sound) (hT : TuplesEquidistributed G e T n)
    {m w : ℝ} (h0 : 1e-200 ≤ w) (h1 : w ≤ 1e200) (hm : |m| ≤ 1e200) :
    JointlyFollow (sampleCC (Rounded.tent M (fin m) (fin w)) G) e T n (tentLaw m w) (n * (1e-13 + 2.4e-16 * (|m| / w) + 14 / (G.max - G.min : ℝ)) + 1 / T) := by
  have hw : 0 < w := lt_of_lt_of_le (by norm_num) h0
  exact joint_of (S := fun _ G => sampleCC (Rounded.tent M (fin m) (fin w)) G) (one_cc fun u => (Rounded.tent M (fin m) (fin w)).draw (fin (u : ℝ))) hG hT (tent_law hw).2 fun h =>
    C101_tent D hd (counter_sound hG) h h0 h1 hm

/-- C104, cauchy_dist<double>. -/
theorem C104_cauchy (D : DoubleWithin M d) (P : FunctionsWithin M d) (hd : d ≤ 2 ^ (-50 : ℤ)) (hG : G.Sound) (hl : (G.min, G.max) ∈ libraryRanges)
    (hT : TuplesEquidistributed G e T n) {theta eta : ℝ} (h0 : 1e-100 ≤ theta) (h1 : theta ≤ 1e100) (he : |eta| ≤ 1e200) :
    JointlyFollow (sampleOO (Rounded.cauchy M piDouble oneOverPiDouble (fin theta) (fin eta)) G) e T n (cauchyLaw theta eta) (n * (1e-14 + 1.2e-16 * (|eta| / theta) + 14 / (G.max - G.min : ℝ)) + 1 / T) := by
  have hm : 0 < theta := lt_of_lt_of_le (by norm_num) h0
  exact joint_of (S := fun _ G => sampleOO (Rounded.cauchy M piDouble oneOverPiDouble (fin theta) (fin eta)) G) (one_oo fun u => (Rounded.cauchy M piDouble oneOverPiDouble (fin theta) (fin eta)).draw (fin (u : ℝ))) hG hT (cauchy_law hm).2 fun h =>
    C101_cauchy D P hd (counter_sound hG) hl h h0 h1 he

/-- C104, pareto_dist<double>; the error grows with the exponent. -/
theorem C104_pareto (D : DoubleWithin M d) (P : FunctionsWithin M d) (hd : d ≤ 2 ^ (-50 : ℤ)) (hG : G.Sound) (hl : (G.min, G.max) ∈ libraryRanges)
    (hT : TuplesEquidistributed G e T n) {gamma theta : ℝ} (g0 : 1 / 10 ≤ gamma) (g1 : gamma ≤ 1e15) (h0 : 1e-100 ≤ theta) (h1 : theta ≤ 1e100) :
    JointlyFollow (sampleOO (Rounded.pareto M (fin gamma) (fin theta)) G) e T n (paretoLaw gamma theta) (n * (2e-14 + 3e-15 * gamma + 14 / (G.max - G.min : ℝ)) + 1 / T) := by
  have hm : 0 < theta := lt_of_lt_of_le (by norm_num) h0
  have hg : 0 < gamma := by linarith
  exact joint_of (S := fun _ G => sampleOO (Rounded.pareto M (fin gamma) (fin theta)) G) (one_oo fun u => (Rounded.pareto M (fin gamma) (fin theta)).draw (fin (u : ℝ))) hG hT (pareto_law hg hm).2 fun h =>
    C101_pareto D P hd (counter_sound hG) hl h g0 g1 h0 h1

/-- C104, powerlaw_dist<double>. -/
theorem C104_powerlaw (D : DoubleWithin M d) (P : FunctionsWithin M d) (hd : d ≤ 2 ^ (-50 : ℤ)) (hG : G.Sound)
    (hT : TuplesEquidistributed G e T n) {gamma theta : ℝ} (g0 : 1 / 10 ≤ gamma) (g1 : gamma ≤ 1e15) (h0 : 1e-100 ≤ theta) (h1 : theta ≤ 1e100) :
    JointlyFollow (sampleOC (Rounded.powerlaw M (fin gamma) (fin theta)) G) e T n (powerlawLaw gamma theta) (n * (2e-14 + 3e-15 * gamma + 14 / (G.max - G.min : ℝ)) + 1 / T) := by
  have hm : 0 < theta := lt_of_lt_of_le (by norm_num) h0
  have hg : 0 < gamma := by linarith
  exact joint_of (S := fun _ G => sampleOC (Rounded.powerlaw M (fin gamma) (fin theta)) G) (one_oc fun u => (Rounded.powerlaw M (fin gamma) (fin theta)).draw (fin (u : ℝ))) hG hT (powerlaw_law hg hm).2 fun h =>
    C101_powerlaw D P hd (counter_sound hG) h g0 g1 h0 h1

/-- C104, weibull_dist<double>. -/
theorem C104_weibull (D : DoubleWithin M d) (P : FunctionsWithin M d) (hd : d ≤ 2 ^ (-50 : ℤ)) (hG : G.Sound)
    (hT : TuplesEquidistributed G e T n) {theta beta : ℝ} (g0 : 1 / 10 ≤ beta) (g1 : beta ≤ 1e15) (h0 : 1e-100 ≤ theta) (h1 : theta ≤ 1e100) :
    JointlyFollow (sampleOC (Rounded.weibull M (fin theta) (fin beta)) G) e T n (weibullLaw theta beta) (n * (2e-14 + 3e-15 * beta + 14 / (G.max - G.min : ℝ)) + 1 / T) := by
  have hm : 0 < theta := lt_of_lt_of_le (by norm_num) h0
  have hg : 0 < beta := by linarith
  exact joint_of (S := fun _ G => sampleOC (Rounded.weibull M (fin theta) (fin beta)) G) (one_oc fun u => (Rounded.weibull M (fin theta) (fin beta)).draw (fin (u : ℝ))) hG hT (weibull_law hm hg).2 fun h =>
    C101_weibull D P hd (counter_sound hG) h g0 g1 h0 h1

/-- C104, lognormal_dist<double>. -/
theorem C104_lognormal (D : DoubleWithin M d) (hd : d ≤ 2 ^ (-50 : ℤ)) (hG : G.Sound) (hl : (G.min, G.max) ∈ libraryRanges) (hT : TuplesEquidistributed G e T n)
    {c b mu sigma : ℝ} (h0 : 1e-200 ≤ sigma) (h1 : |mu| + 39 * sigma ≤ 680) :
    JointlyFollow (sampleOO (Rounded.lognormal M (invPhiDouble M) c b (fin mu) (fin sigma)) G) e T n (lognormalLaw mu sigma) (n * (5e-12 + 2e-15 / sigma + 1.2e-16 * (|mu| / sigma) + 14 / (G.max - G.min : ℝ)) + 1 / T) := by
  have hm : 0 < sigma := lt_of_lt_of_le (by norm_num) h0
  exact joint_of (S := fun _ G => sampleOO (Rounded.lognormal M (invPhiDouble M) c b (fin mu) (fin sigma)) G) (one_oo fun u => (Rounded.lognormal M (invPhiDouble M) c b (fin mu) (fin sigma)).draw (fin (u : ℝ))) hG hT (lognormal_law hm).2 fun h =>
    C101_lognormal D hd (counter_sound hG) hl h h0 h1 (c := c) (b := b)

/-- C104, uniform_int_dist: the fraction of positions from which on the samples are v_0, ..., v_(n-1) is the product of the probabilities. -/
theorem C104_uniform_int (hG : G.Sound) (hT : TuplesEquidistributed G e T n) {a b : ℤ} (ha : -2 ^ 31 ≤ a) (hb : b ≤ 2 ^ 31 - 1) (hab : a < b) (hd : b - a ≤ 2 ^ 31 - 1) :
    ∃ P, IntParam.mk' a b = some P ∧ IntegersJointly (P.sample float64 G) e T n a (uniformInt a b) (n * (5e-15 + 14 / (G.max - G.min : ℝ)) + 1 / T) := by
  obtain ⟨P, hP, -⟩ := C102_uniform_int (counter_sound hG) counter_equi ha hb hab hd
  obtain ⟨-, s2, s3⟩ := uniformInt_sum hab
  refine ⟨P, hP, integers_joint_of (S := fun _ G => P.sample float64 G)
    (one_co fun u => (toInteger (-2 ^ 31) (2 ^ 31 - 1) (float64.rnd (float64.rnd P.d * u))).bind fun k => int32 (k + P.a)) hG hT s3 s2 fun h => ?_⟩
  obtain ⟨Q, hQ, h⟩ := C102_uniform_int (counter_sound hG) h ha hb hab hd
  rw [hP] at hQ
  rw [Option.some.inj hQ]
  exact h

/-- C104, `r(x)` of the engines. -/
theorem C104_bounded_int (hG : G.Sound) (hT : TuplesEquidistributed G e T n) {x : ℤ} (h1 : 1 ≤ x) (h2 : x ≤ 2 ^ 63 - 1) :
    IntegersJointly (fun s => boundedInt float64 G s x) e T n 0 (uniformInt 0 x) (n * (5e-15 + 14 / (G.max - G.min : ℝ)) + 1 / T) := by
  obtain ⟨-, s2, s3⟩ := uniformInt_sum (show 0 < x by omega)
  exact integers_joint_of (S := fun _ G s => boundedInt float64 G s x)
    (one_co fun u => toInteger (-2 ^ 63) (2 ^ 63 - 1) (float64.rnd (u * float64.rnd x))) hG hT s3 s2 fun h => C102_bounded_int (counter_sound hG) h h1 h2

/-- C104, discrete_dist with the weights of C102. -/
theorem C104_discrete (hG : G.Sound) (hT : TuplesEquidistributed G e T n) (m : List ℕ) (z : ℤ) (h0 : 0 < m.sum) (hs : m.sum ≤ 2 ^ 53) :
    ∃ W, WTree.construct float64.rnd (m.map fun n : ℕ => (n : ℚ) * 2 ^ z) = some W ∧
      IntegersJointly (W.sample float64 G) e T n 0 (weighted m) (n * (5e-15 + 14 / (G.max - G.min : ℝ)) + 1 / T) := by
  obtain ⟨W, hW, h⟩ := C72_discrete_float_partial float64_nearest (by decide) hG m z h0 hs
  have hN : W.N ≠ 0 := by
    intro hN
    obtain ⟨k, -, hk, -⟩ := h e
    rw [WTree.sample, if_pos hN] at hk
    have := Option.some.inj hk
    omega
  obtain ⟨-, s2, s3⟩ := weighted_sum m h0
  refine ⟨W, hW, integers_joint_of (S := fun _ G => W.sample float64 G) ⟨fun τ G hG s => ?_, fun τ ρ G H hG hH hm hM s t h => ?_⟩ hG hT s3 s2 fun h => ?_⟩
  · simp only [WTree.sample, if_neg hN]; exact (calls_one (F := float64) (by decide) hG s).2.2.2
  · simp only [WTree.sample, if_neg hN, (deviates hG hm hM h).2.2.2]
  · obtain ⟨Q, hQ, h⟩ := C102_discrete (counter_sound hG) h m z h0 hs
    rw [hW] at hQ
    rw [Option.some.inj hQ]
    exact h

/-- C104, geometric_dist. -/
theorem C104_geometric (D : DoubleWithin M d) (hd : d ≤ 2 ^ (-50 : ℤ)) (hG : G.Sound) (hl : (G.min, G.max) ∈ libraryRanges) (hT : TuplesEquidistributed G e T n)
    {p : ℝ} (p0 : 1e-6 ≤ p) (p1 : p ≤ 1 - 2 ^ (-53 : ℤ)) :
    IntegersJointly (geometricSample M (fin p) G) e T n 0 (Spec.geometric p) (n * (1e-13 + 1.1e-14 / p + 14 / (G.max - G.min : ℝ)) + 1 / T) := by
  have h53 : (0 : ℝ) < 2 ^ (-53 : ℤ) := by positivity
  obtain ⟨-, s2, s3⟩ := geometric_sum (p := p) (by linarith) (by linarith)
  exact integers_joint_of (S := fun _ G => geometricSample M (fin p) G) (one_oo fun u => Rounded.geometricDraw M (Rounded.geometric M (fin p)) (fin (u : ℝ))) hG hT s3 s2
    fun h => C102_geometric D hd (counter_sound hG) hl h p0 p1

/-- C104, binomial_dist with at most 10^6 trials. -/
theorem C104_binomial (D : DoubleWithin M d) (hd : d ≤ 2 ^ (-50 : ℤ)) (hG : G.Sound) (hl : (G.min, G.max) ∈ libraryRanges) (hT : TuplesEquidistributed G e T n)
    {p : ℝ} (p0 : 2 ^ (-53 : ℤ) ≤ p) (p1 : p ≤ 1 - 2 ^ (-53 : ℤ)) {m : ℕ} (hm : m ≤ 1000000) :
    IntegersJointly (binomialSample M (fin p) m G) e T n 0 (Spec.binomial p m) (n * (6e-16 * m ^ 2 + 3e-13 * m + 1.1e-14 + 14 / (G.max - G.min : ℝ)) + 1 / T) := by
  have h53 : (0 : ℝ) < 2 ^ (-53 : ℤ) := by positivity
  obtain ⟨-, s2, s3⟩ := binomial_sum (p := p) (by linarith) (by linarith) m
  exact integers_joint_of (S := fun _ G => binomialSample M (fin p) m G) (one_oo fun u => (Rounded.binomial M (fin p) m).draw (fin (u : ℝ))) hG hT s3 s2
    fun h => C102_binomial D hd (counter_sound hG) hl h p0 p1 hm

open scoped Nat in
/-- C104, hypergeometric_dist with the parameters of C102. -/
theorem C104_hypergeometric (D : DoubleWithin M d) (hd : d ≤ 2 ^ (-50 : ℤ)) (hg : ∀ k : ℕ, k ≤ 900 → Close d (M.lnGamma (fin (k + 1))) (Real.log (k ! : ℕ)))
    (hG : G.Sound) (hl : (G.min, G.max) ∈ libraryRanges) (hT : TuplesEquidistributed G e T n) {N m : ℕ} (hm : m ≤ N) (hN : N ≤ 900) :
    IntegersJointly (hypergeometricSample M N m m G) e T n (max 0 (2 * m - N : ℤ)) (Spec.hypergeometric N m m)
      (n * (9e-14 * N + 1.2e-14 + 14 / (G.max - G.min : ℝ)) + 1 / T) := by
  obtain ⟨-, s2, s3⟩ := hyper_sum hm
  have hlo : max 0 (2 * m - N : ℤ) = (hgMin N m m : ℤ) := by rw [hgMin]; omega
  exact integers_joint_of (S := fun _ G => hypergeometricSample M N m m G) (one_oo fun u => (Rounded.hypergeometric M N m m).draw (fin (u : ℝ))) hG hT s3
    (by rw [hlo]; exact s2) fun h => C102_hypergeometric D hd hg (counter_sound hG) hl h hm hN

open Classical in
/-- C104, bernoulli_dist: the fraction of positions at which a given sequence of n heads and tails begins is the product of the probabilities. -/
theorem C104_bernoulli {τ : Type} (P : BernoulliParam τ) (hne : P.head ≠ P.tail) (h0 : 0 ≤ P.p) (h1 : P.p ≤ 1) (hG : G.Sound) (hT : TuplesEquidistributed G e T n)
    (v : Fin n → Bool) :
    |(((Finset.range T).filter fun k => ∀ i : Fin n, nth (P.sample float64 G) e (k + i.val) = if v i then P.head else P.tail).card : ℝ) / T -
      ∏ i, (if v i then (P.p : ℝ) else 1 - P.p)| ≤ n * (4e-15 + 14 / (G.max - G.min : ℝ)) + 1 / T := by
  have g0 : (0 : ℝ) ≤ P.p := by exact_mod_cast h0
  have g1 : (P.p : ℝ) ≤ 1 := by exact_mod_cast h1
  have hF := C102_bernoulli P hne h0 h1 (counter_sound hG) counter_equi
  have hS : OneCall fun σ (G : Gen σ) => P.sample float64 G := one_co fun u => if u < P.p then P.head else P.tail
  simp only [← oneCall_after hS hG]
  refine le_trans (joint_general hS hG (tuples_streams.1 hT)
    (fun i x => x = if v i then P.head else P.tail) (fun i => if v i then (P.p : ℝ) else 1 - P.p) (fun i => by split_ifs <;> constructor <;> linarith)
    (δ := 4e-15 + 13 / (G.max - G.min : ℝ) + 1 / ((G.max - G.min + 1 : ℕ) : ℝ)) fun i => ?_) (bound_le hG)
  by_cases hv : v i = true
  · simp only [hv, if_true]
    exact hF.2
  · simp only [hv, Bool.false_eq_true, if_false]
    have hN : (0 : ℝ) < ((G.max - G.min + 1 : ℕ) : ℝ) := by positivity
    have hc := Finset.card_filter_add_card_filter_not (s := Finset.range (G.max - G.min + 1))
      (fun k => nth (P.sample float64 (counter G.min G.max)) 0 k = P.head)
    have he : ((Finset.range (G.max - G.min + 1)).filter fun k => ¬ nth (P.sample float64 (counter G.min G.max)) 0 k = P.head) =
        (Finset.range (G.max - G.min + 1)).filter fun k => nth (P.sample float64 (counter G.min G.max)) 0 k = P.tail :=
      Finset.filter_congr fun k _ => ⟨fun h => (hF.1 k).resolve_left h, fun h h' => hne (h'.symm.trans h)⟩
    rw [he, Finset.card_range] at hc
    have h2 := hF.2
    have hc' : (((Finset.range (G.max - G.min + 1)).filter fun k => nth (P.sample float64 (counter G.min G.max)) 0 k = P.tail).card : ℝ) =
        ((G.max - G.min + 1 : ℕ) : ℝ) - ((Finset.range (G.max - G.min + 1)).filter fun k => nth (P.sample float64 (counter G.min G.max)) 0 k = P.head).card := by
      rw [eq_sub_iff_add_eq, add_comm]; exact_mod_cast hc
    rw [hc', sub_div, div_self hN.ne', sub_sub_sub_cancel_left, abs_sub_comm]
    exact h2

/-! ### Examples -/

theorem xoshiro_length : ((gen64 Xoshiro.call).max : ℝ) - (gen64 Xoshiro.call).min = 18446744073709551615 := by
  have a : (gen64 Xoshiro.call).max = 18446744073709551615 := rfl
  have b : (gen64 Xoshiro.call).min = 0 := rfl
  rw [a, b]; norm_num

open Classical in
/-- Over the period of the default xoshiro256plus the fraction of three successive exponential samples with mean 1 that are all below 1 is (1 - 1/e)³, up to 4e-13. -/
example : |(((Finset.range (2 ^ 256 - 1)).filter fun k => ∀ i : Fin 3, nth (sampleOC (exponential doubleMachine (fin 1)) (gen64 Xoshiro.call)) Xoshiro.default (k + i.val) ≤ fin 1).card : ℝ) /
    ((2 ^ 256 - 1 : ℕ) : ℝ) - (1 - Real.exp (-1)) ^ 3| ≤ 4e-13 := by
  have h := (C104_exponential (mu := 1) C100_machine (by norm_num) (gen64_sound _) (C104_xoshiro Xoshiro.default (by decide) (n := 3) le_rfl) (by norm_num) (by norm_num)).law fun _ => 1
  rw [xoshiro_length] at h
  have e1 : exponentialLaw 1 1 = 1 - Real.exp (-1) := by rw [exponentialLaw]; norm_num
  rw [Finset.prod_const, Finset.card_univ, Fintype.card_fin, e1] at h
  exact h.trans (by norm_num)

/-- Normal samples of the default yarn3, in three dimensions. -/
example : ((yarnGen .k3).min, (yarnGen .k3).max) ∈ libraryRanges ∧ (yarnGen .k3).Sound ∧
    TuplesEquidistributed (yarnGen .k3) ⟨MRG.init .k3, MRG.init_inRange .k3⟩ (Kind.modulus .k3 ^ Kind.order .k3 - 1) 3 :=
  ⟨(modulus_facts .k3).2.2.1, yarn_sound .k3, yarn3_tuples⟩

/-- Pairs of dice with the default xoshiro256plus. -/
example : ∃ P, IntParam.mk' 1 7 = some P ∧ IntegersJointly (P.sample float64 (gen64 Xoshiro.call)) Xoshiro.default (2 ^ 256 - 1) 2 1 (uniformInt 1 7)
    ((2 : ℕ) * (5e-15 + 14 / (((gen64 Xoshiro.call).max : ℝ) - ((gen64 Xoshiro.call).min : ℝ))) + 1 / ((2 ^ 256 - 1 : ℕ) : ℝ)) :=
  C104_uniform_int (gen64_sound _) (C104_xoshiro _ (by decide) (by norm_num)) (by norm_num) (by norm_num) (by norm_num) (by norm_num)

end Trng.Props
