import Verif.Props.RoundedTable
import Verif.Props.PeriodLaw

/-! Property C102: over a full period of an engine the samples of discrete distributions follow their law. -/
namespace Trng.Props
open XR Spec Rounded PeriodLaw Trng.Uniform FP Trng.Discrete

variable {σ : Type} {M : Machine} {d : ℝ} {G : Gen σ} {e : σ} {T : ℕ}

/-- C102, uniform_int_dist: over a period of an engine that returns every number equally often, every sample is defined and in [a, b), for every t
the fraction of samples up to t is (t - a + 1) / (b - a) and the fraction of samples with the value v is 1 / (b - a), up to 5e-15 (twice that), 13
divided by the length of the engine's range, and 1/T. -/
theorem C102_uniform_int (hG : G.Sound) (hE : Equidistributed G e T) {a b : ℤ} (ha : -2 ^ 31 ≤ a) (hb : b ≤ 2 ^ 31 - 1) (hab : a < b) (hd : b - a ≤ 2 ^ 31 - 1) :
    ∃ P, IntParam.mk' a b = some P ∧ IntegersFollow (P.sample float64 G) e T a (uniformInt a b) (5e-15 + 13 / (G.max - G.min : ℝ) + 1 / T) := by
  refine ⟨⟨a, b, b - a⟩, ?_, ?_⟩
  · rw [IntParam.mk', int32, if_pos ⟨by omega, by omega⟩]; rfl
  obtain ⟨h1, h2, h3⟩ := uniformInt_sum hab
  refine IntegersFollow.mono (integers_co (draw := fun u => (toInteger (-2 ^ 31) (2 ^ 31 - 1) (float64.rnd (float64.rnd (b - a : ℤ) * u))).bind fun k => int32 (k + a))
    hG hE (fun s => rfl) h3 h2 (ε := 4e-16) (by norm_num) fun u hu u0 u1 => ?_) (by linarith)
  obtain ⟨k, hk, hkx, k1, k2⟩ := scaled_floor hu u0 u1 (x := b - a) (lo := -2 ^ 31) (hi := 2 ^ 31 - 1) (by omega) (by norm_num) (by omega)
  refine ⟨k + a, ?_, by omega, ?_⟩
  · show Option.bind _ _ = _
    rw [mul_comm, hk]
    exact if_pos ⟨by omega, by omega⟩
  have e1 := h1 k (by omega)
  have e2 := h1 (k + 1) (by push_cast; omega)
  rw [show a + (k : ℤ) - 1 = (k : ℤ) + a - 1 by ring] at e1
  rw [show a + ((k + 1 : ℕ) : ℤ) - 1 = (k : ℤ) + a by push_cast; ring] at e2
  rw [e1, e2]
  push_cast at k1 k2 ⊢
  exact ⟨k1, k2⟩

/-- A die with the default lcg64: each face with a frequency of 1/6 over the period. -/
example : ∃ P, IntParam.mk' 1 7 = some P ∧ IntegersFollow (P.sample float64 (gen64 LCG64.call)) ⟨LCG64.Default, 0⟩ (2 ^ 64) 1 (uniformInt 1 7)
    (5e-15 + 13 / (((gen64 LCG64.call).max : ℝ) - ((gen64 LCG64.call).min : ℝ)) + 1 / ((2 ^ 64 : ℕ) : ℝ)) :=
  C102_uniform_int (gen64_sound _) (C101_lcg64 _ (by decide) (by decide)).1 (by norm_num) (by norm_num) (by norm_num) (by norm_num)

/-- C102, `r(x)` of the engines: integers from 0 to x - 1. -/
theorem C102_bounded_int (hG : G.Sound) (hE : Equidistributed G e T) {x : ℤ} (h1 : 1 ≤ x) (h2 : x ≤ 2 ^ 63 - 1) :
    IntegersFollow (fun s => boundedInt float64 G s x) e T 0 (uniformInt 0 x) (5e-15 + 13 / (G.max - G.min : ℝ) + 1 / T) := by
  obtain ⟨s1, s2, s3⟩ := uniformInt_sum (show 0 < x by omega)
  refine IntegersFollow.mono (integers_co (draw := fun u => toInteger (-2 ^ 63) (2 ^ 63 - 1) (float64.rnd (u * float64.rnd x)))
    hG hE (fun s => rfl) s3 s2 (ε := 4e-16) (by norm_num) fun u hu u0 u1 => ?_) (by linarith)
  obtain ⟨k, hk, hkx, k1, k2⟩ := scaled_floor hu u0 u1 (x := x) (lo := -2 ^ 63) (hi := 2 ^ 63 - 1) (by omega) (by norm_num) (by omega)
  refine ⟨k, hk, by omega, ?_⟩
  have e1 := s1 k (by omega)
  have e2 := s1 (k + 1) (by push_cast; omega)
  rw [zero_add] at e1
  rw [show (0 : ℤ) + ((k + 1 : ℕ) : ℤ) - 1 = (k : ℤ) by push_cast; ring] at e2
  rw [e1, e2]
  push_cast at k1 k2 ⊢
  rw [sub_zero]
  exact ⟨k1, k2⟩

example : IntegersFollow (fun s => boundedInt float64 (gen64 Xoshiro.call) s 1000) Xoshiro.default (2 ^ 256 - 1) 0 (uniformInt 0 1000)
    (5e-15 + 13 / (((gen64 Xoshiro.call).max : ℝ) - ((gen64 Xoshiro.call).min : ℝ)) + 1 / ((2 ^ 256 - 1 : ℕ) : ℝ)) :=
  C102_bounded_int (gen64_sound _) (C101_xoshiro _ (by decide)) (by norm_num) (by norm_num)

open Classical in
/-- C102, bernoulli_dist: every sample is head or tail, and the fraction of heads is p. -/
theorem C102_bernoulli {τ : Type} (P : BernoulliParam τ) (hne : P.head ≠ P.tail) (h0 : 0 ≤ P.p) (h1 : P.p ≤ 1) (hG : G.Sound) (hE : Equidistributed G e T) :
    (∀ k, nth (P.sample float64 G) e k = P.head ∨ nth (P.sample float64 G) e k = P.tail) ∧
    |(((Finset.range T).filter fun k => nth (P.sample float64 G) e k = P.head).card : ℝ) / T - P.p| ≤ 4e-15 + 13 / (G.max - G.min : ℝ) + 1 / T := by
  have hs : ∀ s, (P.sample float64 G s).2 = (G.call s).2 := fun s => (calls_one (F := float64) (by decide) hG s).2.2.2
  have hnth : ∀ k, nth (P.sample float64 G) e k = (P.sample float64 G (afterCalls G.call k e)).1 := fun k => by rw [nth, after_eq hs]
  have hv : ∀ s, (P.sample float64 G s).1 = if (uniformco float64 G s).1 < P.p then P.head else P.tail := fun s => rfl
  have h5 := pos_nonneg' hG
  constructor
  · intro k
    rw [hnth, hv]
    split_ifs
    · exact Or.inl rfl
    · exact Or.inr rfl
  refine (between hG hE (c := (P.p : ℝ)) (δ := 0 + (12 / (G.max - G.min) + 4e-15)) (by exact_mod_cast h0) (by exact_mod_cast h1) (by linarith)
    (fun k _ hk => ?_) fun k _ hk => ?_).trans ((sum_le hG).trans (by linarith))
  · obtain ⟨u, eu, -, -, ha⟩ := co_facts hG (afterCalls G.call k e)
    rw [hnth, hv]
    refine if_pos ?_
    have : ((uniformco float64 G (afterCalls G.call k e)).1 : ℝ) < P.p := by rw [eu]; linarith [(abs_le.1 ha).2]
    exact_mod_cast this
  · obtain ⟨u, eu, -, -, ha⟩ := co_facts hG (afterCalls G.call k e)
    rw [hnth, hv] at hk
    have : (uniformco float64 G (afterCalls G.call k e)).1 < P.p := by
      by_contra hc
      rw [if_neg hc] at hk
      exact hne hk.symm
    have h2 : ((uniformco float64 G (afterCalls G.call k e)).1 : ℝ) < P.p := by exact_mod_cast this
    rw [eu] at h2
    linarith [(abs_le.1 ha).1]

example : (1 / 3 : ℚ) ≤ 1 ∧ (true ≠ false) ∧ (gen64 LCG64.call).Sound ∧ Equidistributed (gen64 LCG64.call) ⟨LCG64.Default, 0⟩ (2 ^ 64) :=
  ⟨by norm_num, by decide, gen64_sound _, (C101_lcg64 _ (by decide) (by decide)).1⟩

/-- C102, discrete_dist with weights that are multiples of a power of two with a sum of at most 2^53 of them (for others see C72): every sample is
an index, and the fraction of samples with the value k is the weight of k divided by the sum. -/
theorem C102_discrete (hG : G.Sound) (hE : Equidistributed G e T) (m : List ℕ) (z : ℤ) (h0 : 0 < m.sum) (hs : m.sum ≤ 2 ^ 53) :
    ∃ W, WTree.construct float64.rnd (m.map fun n : ℕ => (n : ℚ) * 2 ^ z) = some W ∧
      IntegersFollow (W.sample float64 G) e T 0 (weighted m) (5e-15 + 13 / (G.max - G.min : ℝ) + 1 / T) := by
  obtain ⟨W, hW, h⟩ := C72_discrete_float_partial float64_nearest (by decide) hG m z h0 hs
  refine ⟨W, hW, ?_⟩
  obtain ⟨s1, s2, s3⟩ := weighted_sum m h0
  have h5 := pos_nonneg' hG
  have hN : W.N ≠ 0 := by
    intro hN
    obtain ⟨k, -, hk, -⟩ := h e
    rw [WTree.sample, if_pos hN] at hk
    have := Option.some.inj hk
    omega
  refine IntegersFollow.mono (integers hG hE (fun s => by rw [WTree.sample, if_neg hN]; exact (calls_one (F := float64) (by decide) hG s).2.2.2) s3 s2
    (δ := 4e-16 + (12 / (G.max - G.min) + 4e-15)) (by linarith) fun s => ?_) ((sum_le hG).trans (by linarith))
  obtain ⟨k, -, hk, k1, k2⟩ := h s
  obtain ⟨u, eu, -, -, ha⟩ := co_facts hG s
  obtain ⟨u0, u1⟩ := C47_uniformco float64_nearest (by decide) hG s
  have hz : (0 : ℚ) < 2 ^ z := by positivity
  have hsum : ∀ n, ((m.map fun n : ℕ => (n : ℚ) * 2 ^ z).take n).sum = ((m.take n).sum : ℚ) * 2 ^ z := fun n => by
    rw [List.map_take.symm]; exact sum_scaled _ _
  have hS : (m.map fun n : ℕ => (n : ℚ) * 2 ^ z).sum = (m.sum : ℚ) * 2 ^ z := sum_scaled _ _
  have hm : (0 : ℚ) < m.sum := by exact_mod_cast h0
  rw [hsum, hS] at k1 k2
  obtain ⟨c1, c2⟩ := scaled_sum u0 u1 (mul_pos hm hz) k1 k2
  have cancel : ∀ a : ℚ, a * 2 ^ z / (m.sum * 2 ^ z) = a / m.sum := fun a => mul_div_mul_right _ _ hz.ne'
  rw [cancel, eu] at c1 c2
  refine ⟨k, hk, by omega, ?_⟩
  have e2 := s1 (k + 1)
  rw [show ((k + 1 : ℕ) : ℤ) - 1 = k by push_cast; ring] at e2
  rw [Rat.cast_div, Rat.cast_natCast, Rat.cast_natCast] at c1 c2
  rw [s1, e2]
  obtain ⟨b1, b2⟩ := abs_le.1 ha
  exact ⟨by linarith, by linarith⟩

/-- Weights 1, 0, 2, 3/2. -/
example : ∃ W, WTree.construct float64.rnd ([2, 0, 4, 3].map fun n : ℕ => (n : ℚ) * 2 ^ (-1 : ℤ)) = some W ∧
    IntegersFollow (W.sample float64 (gen64 LCG64.call)) ⟨LCG64.Default, 0⟩ (2 ^ 64) 0 (weighted [2, 0, 4, 3])
    (5e-15 + 13 / (((gen64 LCG64.call).max : ℝ) - ((gen64 LCG64.call).min : ℝ)) + 1 / ((2 ^ 64 : ℕ) : ℝ)) :=
  C102_discrete (gen64_sound _) (C101_lcg64 _ (by decide) (by decide)).1 [2, 0, 4, 3] (-1) (by norm_num) (by norm_num)

/-- C102, geometric_dist with p from 1e-6 to the largest `double` below 1. -/
theorem C102_geometric (D : DoubleWithin M d) (hd : d ≤ 2 ^ (-50 : ℤ)) (hG : G.Sound) (hl : (G.min, G.max) ∈ libraryRanges) (hE : Equidistributed G e T)
    {p : ℝ} (p0 : 1e-6 ≤ p) (p1 : p ≤ 1 - 2 ^ (-53 : ℤ)) :
    IntegersFollow (geometricSample M (fin p) G) e T 0 (Spec.geometric p) (1e-13 + 1.1e-14 / p + 13 / (G.max - G.min : ℝ) + 1 / T) := by
  have hp : 0 < p := by linarith
  have h53 : (0 : ℝ) < 2 ^ (-53 : ℤ) := by positivity
  obtain ⟨-, s2, s3⟩ := geometric_sum hp.le (by linarith)
  have : 0 ≤ 1.1e-14 / p := by positivity
  refine IntegersFollow.mono (integers_oo_rev D hG hl hE (fun s => rfl) s3 s2 (ε := 9e-14 + 1.1e-14 / p) (by linarith) fun u _ u0 u1 =>
    geometric_draw D (hd.trans (by norm_num)) p0 p1 u0 u1) (by linarith)

example : IntegersFollow (geometricSample doubleMachine (fin (1 / 4)) (gen64 Xoshiro.call)) Xoshiro.default (2 ^ 256 - 1) 0 (Spec.geometric (1 / 4))
    (1e-13 + 1.1e-14 / (1 / 4) + 13 / (((gen64 Xoshiro.call).max : ℝ) - ((gen64 Xoshiro.call).min : ℝ)) + 1 / ((2 ^ 256 - 1 : ℕ) : ℝ)) :=
  C102_geometric C100_machine (by norm_num) (gen64_sound _) (C101_ranges .k3 Xoshiro.call).2.1 (C101_xoshiro _ (by decide)) (by norm_num) (by norm_num)

/-- C102, binomial_dist with at most 10^6 trials. -/
theorem C102_binomial (D : DoubleWithin M d) (hd : d ≤ 2 ^ (-50 : ℤ)) (hG : G.Sound) (hl : (G.min, G.max) ∈ libraryRanges) (hE : Equidistributed G e T)
    {p : ℝ} (p0 : 2 ^ (-53 : ℤ) ≤ p) (p1 : p ≤ 1 - 2 ^ (-53 : ℤ)) {n : ℕ} (hn : n ≤ 1000000) :
    IntegersFollow (binomialSample M (fin p) n G) e T 0 (Spec.binomial p n) (6e-16 * n ^ 2 + 3e-13 * n + 1.1e-14 + 13 / (G.max - G.min : ℝ) + 1 / T) := by
  have h53 : (0 : ℝ) < 2 ^ (-53 : ℤ) := by positivity
  obtain ⟨-, s2, s3⟩ := binomial_sum (p := p) (by linarith) (by linarith) n
  refine IntegersFollow.mono (integers_oo D hG hl hE (fun s => rfl) s3 s2 (ε := 6e-16 * n ^ 2 + 3e-13 * n + 7e-15) (by positivity) fun u _ u0 u1 => ?_) (by linarith)
  obtain ⟨k, hk, k0, -, k1, k2⟩ := C98_binomial D hd p0 p1 hn (u := u) (le_trans (by positivity) u0) u1
  exact ⟨k, hk, k0, k1, k2⟩

/-- Ten fair coins. -/
example : IntegersFollow (binomialSample doubleMachine (fin (1 / 2)) 10 (gen64 Xoshiro.call)) Xoshiro.default (2 ^ 256 - 1) 0 (Spec.binomial (1 / 2) 10)
    (6e-16 * ((10 : ℕ) : ℝ) ^ 2 + 3e-13 * (10 : ℕ) + 1.1e-14 + 13 / (((gen64 Xoshiro.call).max : ℝ) - ((gen64 Xoshiro.call).min : ℝ)) + 1 / ((2 ^ 256 - 1 : ℕ) : ℝ)) :=
  C102_binomial C100_machine (by norm_num) (gen64_sound _) (C101_ranges .k3 Xoshiro.call).2.1 (C101_xoshiro _ (by decide)) (by norm_num) (by norm_num) (by norm_num)

open scoped Nat in
/-- C102, hypergeometric_dist with at most 900 balls, if as many are drawn as there are white ones (otherwise the law is wrong, C55). -/
theorem C102_hypergeometric (D : DoubleWithin M d) (hd : d ≤ 2 ^ (-50 : ℤ)) (hg : ∀ k : ℕ, k ≤ 900 → Close d (M.lnGamma (fin (k + 1))) (Real.log (k ! : ℕ)))
    (hG : G.Sound) (hl : (G.min, G.max) ∈ libraryRanges) (hE : Equidistributed G e T) {n m : ℕ} (hm : m ≤ n) (hn : n ≤ 900) :
    IntegersFollow (hypergeometricSample M n m m G) e T (max 0 (2 * m - n : ℤ)) (Spec.hypergeometric n m m) (9e-14 * n + 1.2e-14 + 13 / (G.max - G.min : ℝ) + 1 / T) := by
  obtain ⟨-, s2, s3⟩ := hyper_sum hm
  have hlo : max 0 (2 * m - n : ℤ) = (hgMin n m m : ℤ) := by rw [hgMin]; omega
  refine IntegersFollow.mono (integers_oo D hG hl hE (fun s => rfl) s3 (by rw [hlo]; exact s2) (ε := 9e-14 * n + 8e-15) (by positivity) fun u _ u0 u1 => ?_) (by linarith)
  obtain ⟨k, hk, k0, -, k1, k2⟩ := C98_hypergeometric_partial D hd hg hm hn (u := u) (le_trans (by positivity) u0) u1
  exact ⟨k, hk, k0, k1, k2⟩

example : IntegersFollow (hypergeometricSample doubleMachine (49 : ℕ) (6 : ℕ) (6 : ℕ) (gen64 Xoshiro.call)) Xoshiro.default (2 ^ 256 - 1) (max 0 (2 * (6 : ℕ) - (49 : ℕ) : ℤ)) (Spec.hypergeometric 49 6 6)
    (9e-14 * (49 : ℕ) + 1.2e-14 + 13 / (((gen64 Xoshiro.call).max : ℝ) - ((gen64 Xoshiro.call).min : ℝ)) + 1 / ((2 ^ 256 - 1 : ℕ) : ℝ)) :=
  C102_hypergeometric C100_machine (by norm_num) C98_machine (gen64_sound _) (C101_ranges .k3 Xoshiro.call).2.1 (C101_xoshiro _ (by decide)) (by norm_num) (by norm_num)

end Trng.Props
