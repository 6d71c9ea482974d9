import Verif.Proofs.RoundedDiscrete

/-! Property C98: the discrete distributions in floating-point arithmetic. -/
namespace Trng.Props
open XR Spec Rounded

/-- C98: with exact arithmetic the model of this property is the model on exact reals, of which C55-C58 speak. -/
theorem C98_exact :
    (∀ n m d, hypergeometric .exact n m d = Hypergeometric.construct n m d) ∧ (∀ p n, binomial .exact p n = Binomial.construct p n) ∧
    (∀ mu u, Rounded.ZTPoisson.draw .exact GammaQ mu u = Trng.ZTPoisson.draw mu u) ∧
    (∀ mu x, Rounded.ZTPoisson.cdf .exact GammaQ mu x = Trng.ZTPoisson.cdf mu x) ∧
    (∀ p, geometric .exact p = Geometric.construct p) ∧ (∀ G u, geometricDraw .exact G u = G.draw u) ∧
    (∀ G x, geometricCdf .exact G x = G.cdf x) :=
  ⟨exact_hypergeometric, exact_binomial, exact_ztDraw, fun mu x => by rw [exact_ztCdf], exact_geometric, exact_geometricDraw, exact_geometricCdf⟩

/-- C98, hypergeometric_dist and binomial_dist: whatever the arithmetic and the library compute (NaN included), for every deviate
there is a sample, and it lies between `min` and `max`. -/
theorem C98_table_range (M : Machine) :
    (∀ (n m d : ℤ), max 0 (d - n + m) ≤ min d m → ∀ u : XR, ∃ k, (hypergeometric M n m d).draw u = some k ∧ max 0 (d - n + m) ≤ k ∧ k ≤ min d m) ∧
    (∀ (p : XR) (n : ℕ) (u : XR), ∃ k, (binomial M p n).draw u = some k ∧ 0 ≤ k ∧ k ≤ n) :=
  ⟨fun _ _ _ h u => hyper_range h u, fun p n u => binomial_range p u n⟩

example : ∃ k, (hypergeometric doubleMachine 10 4 7).draw (fin (1 / 3)) = some k ∧ max 0 (7 - 10 + 4) ≤ k ∧ k ≤ min 7 4 :=
  (C98_table_range doubleMachine).1 10 4 7 (by norm_num) _

/-- C98, geometric_dist: in every floating-point arithmetic a sample, if the conversion to `int` is defined, is not negative, and
`cdf` is a number in [0,1].  Missing: that there is a sample (see `C98_geometric_wrong` and `C58_geometric_overflow_wrong`). -/
theorem C98_geometric_partial {M : Machine} (S : Sound M) {p : ℝ} (hp0 : 0 ≤ p) (hp1 : p ≤ 1) :
    (∀ u : ℝ, 0 < u → u < 1 → ∀ k, geometricDraw M (geometric M (fin p)) (fin u) = some k → 0 ≤ k) ∧
    (∀ x : ℤ, 0 ≤ geometricCdf M (geometric M (fin p)) x ∧ geometricCdf M (geometric M (fin p)) x ≤ 1) :=
  ⟨fun _ h0 h1 _ hk => geometric_nonneg S hp0 hp1 h0 h1 hk, geometric_cdf S hp0 hp1⟩

example : ∀ x : ℤ, 0 ≤ geometricCdf doubleMachine (geometric doubleMachine (fin (1 / 3))) x :=
  fun x => ((C98_geometric_partial double_sound (by norm_num) (by norm_num)).2 x).1

/-- C98 fails for geometric_dist: when `1 - p` rounds to 1, each draw converts an infinity or NaN to `int`, which is undefined
behaviour; in `double` this is so for `p ≤ 2⁻⁶⁰`. -/
theorem C98_geometric_wrong {p u : ℝ} (hp0 : 0 < p) (hp : p ≤ 2 ^ (-60 : ℤ)) (h0 : 0 < u) (h1 : u < 1) :
    geometricDraw doubleMachine (geometric doubleMachine (fin p)) (fin u) = none :=
  geometric_none double_sound (by rw [one_def, Machine.sub_fin]; exact dbl_near_one hp0.le hp) h0 h1

example : geometricDraw doubleMachine (geometric doubleMachine (fin (1 / 10 ^ 20))) (fin (1 / 2)) = none :=
  C98_geometric_wrong (by norm_num) (by norm_num) (by norm_num) (by norm_num)

/-- C98 fails for hypergeometric_dist: as soon as one entry of the table overflows, every sample is the largest number; in `double`
hypergeometric_dist(2000, 1000, 1000) gives 1000 for every deviate but 0, although the probability of 1000 is 1 / C(2000,1000). -/
theorem C98_hypergeometric_wrong :
    (∀ (M : Machine), Rounding M.rnd → ∀ n m d : ℤ, (∃ x, max 0 (d - n + m) ≤ x ∧ x ≤ min d m ∧ hyperEntry M n m x = pinf) →
      ∀ u : ℝ, 0 < u → (hypergeometric M n m d).draw (fin u) = some (min d m)) ∧
    (∀ u : ℝ, 0 < u → (hypergeometric doubleMachine 2000 1000 1000).draw (fin u) = some 1000) ∧
    Spec.hypergeometric 2000 1000 1000 1000 = 1 / (Nat.choose 2000 1000 : ℕ) := by
  refine ⟨fun M R n m d h u hu => hyper_overflow R h hu, fun u hu => ?_, ?_⟩
  · exact hyper_overflow double_sound.rounding ⟨500, by norm_num [Hypergeometric.lower], by norm_num [Hypergeometric.upper], hyper_entry_inf⟩ hu
  · have e : ∀ N : ℕ, Spec.hypergeometric (2 * N) N N (N : ℤ) = 1 / (Nat.choose (2 * N) N : ℕ) := by
      intro N
      simp [Spec.hypergeometric]
    exact e 1000

/-- C98 fails for zero_truncated_poisson_dist with a large mean: in `double`, with a mean of 710 or more, all samples are the same number
(whatever the implementation of `GammaQ` gives) and `cdf` is NaN. -/
theorem C98_zero_truncated_poisson_large_wrong {mu : ℝ} (h : 710 ≤ mu) (h' : mu ≤ 2 ^ 29) (Q : XR → XR → XR) :
    (∃ k, ∀ u : ℝ, 0 < u → Rounded.ZTPoisson.draw doubleMachine Q (fin mu) (fin u) = some k) ∧
    (∀ x : ℤ, 1 ≤ x → Rounded.ZTPoisson.cdf doubleMachine Q (fin mu) x = nan) := ztp_double h h' Q

example : ∃ k, ∀ u : ℝ, 0 < u → Rounded.ZTPoisson.draw doubleMachine GammaQ (fin 1000) (fin u) = some k :=
  (C98_zero_truncated_poisson_large_wrong (by norm_num) (by norm_num) GammaQ).1

/-- C98 fails for zero_truncated_poisson_dist with a small mean: in `double`, with a mean of 2⁻⁶⁰ and a correctly rounded `GammaQ`, `cdf` of
1, …, 7 is 0, although the probability of 1 is more than 1 - 2⁻⁶⁰, and with the deviate 1/2 the loop for the tail runs until `x`
overflows. -/
theorem C98_zero_truncated_poisson_small_wrong :
    let Q : XR → XR → XR := fun a x => doubleMachine.round (GammaQ a x)
    (∀ x : ℤ, 1 ≤ x → x ≤ 7 → Rounded.ZTPoisson.cdf doubleMachine Q (fin (2 ^ (-60 : ℤ))) x = 0) ∧
    Rounded.ZTPoisson.draw doubleMachine Q (fin (2 ^ (-60 : ℤ))) (fin (1 / 2)) = none ∧
    1 - 2 ^ (-60 : ℤ) < Spec.ztPoisson (2 ^ (-60 : ℤ)) 1 := by
  intro Q
  obtain ⟨h1, h2⟩ := ztp_tiny (Q := Q) fun x h1 _ => tiny_gammaQ (by omega)
  refine ⟨h2, h1, ?_⟩
  have hm := two_zpow_pos (-60)
  have hm1 : (2 : ℝ) ^ (-60 : ℤ) < 1 := by norm_num
  generalize (2 : ℝ) ^ (-60 : ℤ) = mu at hm hm1 ⊢
  have h3 := Real.add_one_lt_exp (neg_ne_zero.2 hm.ne')
  have h4 : Real.exp (-mu) < 1 := by rw [Real.exp_lt_one_iff]; linarith
  have e : Spec.ztPoisson mu 1 = Real.exp (-mu) * mu / (1 - Real.exp (-mu)) := by
    simp [Spec.ztPoisson, Spec.poisson]
  rw [e, lt_div_iff₀ (by linarith)]
  nlinarith

end Trng.Props
