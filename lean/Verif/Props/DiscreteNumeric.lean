import Verif.Proofs.PoissonNumeric
import Verif.Proofs.NegBinNumeric
import Verif.Props.DiscreteLaws
import Verif.Spec.DiscreteNumeric

/-! Property C95: poisson_dist, zero_truncated_poisson_dist and negative_binomial_dist with the library's incomplete Gamma and Beta
functions. -/
namespace Trng.Props
open XR Discrete MeasureTheory Special TailApprox

/-! ### C95 -/

theorem le_shift {S d e u : ℝ} (hu : u ≤ S - d) (h : -d ≤ e) : u ≤ S + e := by linarith

theorem inverts_upto {f : ℤ → ℝ} {g : ℕ → ℝ} (h : ∀ k : ℕ, f k = g k) (hg : ∀ k, 0 ≤ g k) (hF : ∀ k, (Finset.range k).sum g ≤ 1) {draw : ℝ → Option ℤ} {d : ℝ} (hd : 0 ≤ d)
    (h1 : ∀ u, 0 ≤ u → u < 1 → ∀ k : ℤ, draw u = some k → ∃ j : ℕ, k = j ∧ j < 2 ^ 31 ∧ u ≤ (Finset.range (j + 1)).sum g + d ∧
      (j ≠ 0 → (Finset.range j).sum g - d ≤ u))
    (h2 : ∀ u, 0 ≤ u → u < 1 → u ≤ (Finset.range (2 ^ 31)).sum g - d → ∃ k, draw u = some k) : Spec.InvertsUpTo draw f d := by
  refine ⟨fun u hu0 hu1 k hk => ?_, fun k hk0 hk => ?_⟩
  · obtain ⟨j, rfl, e1, e2, e3⟩ := h1 u hu0 hu1 k hk
    refine ⟨by omega, by omega, by rwa [cumulative_nat h], fun hj => ?_⟩
    rw [show (j : ℤ) - 1 = ((j - 1 : ℕ) : ℤ) by omega, cumulative_nat h, show j - 1 + 1 = j by omega]
    exact e3 (by omega)
  · obtain ⟨j, rfl⟩ := Int.eq_ofNat_of_zero_le hk0
    rw [cumulative_nat h]
    exact law hg hF hd h1 h2 (by omega)

/-- C95, poisson_dist with the library's `GammaQ`: cdf is Poisson's distribution function up to an error of 10⁻¹⁰; a sample inverts
it up to this error, and so does the law of the samples.  Sampling ends for all deviates up to 1024 machine epsilons below the
probability of all `int`s, and for means up to 7 for all deviates up to this probability.  Missing: that it ends for the largest
deviates when the mean is larger. -/
theorem C95_poisson_partial {mu : ℝ} (h : 0 < mu) (hm : 2 * mu ≤ 2 ^ 31 - 1) :
    (∀ x : ℤ, ∃ y : ℝ, PoissonBy.cdf libGammaQ (fin mu) x = fin y ∧ |y - Spec.cumulative (Spec.poisson mu) x| ≤ 1 / 10 ^ 10) ∧
    Spec.InvertsUpTo (fun u => PoissonBy.draw libGammaQ (fin mu) (fin u)) (Spec.poisson mu) (1 / 10 ^ 10) ∧
    (∀ u : ℝ, 0 ≤ u → u < 1 → u ≤ Spec.cumulative (Spec.poisson mu) (2 ^ 31 - 1) - 1024 * Limits.double.epsilon →
      ∃ k : ℤ, PoissonBy.draw libGammaQ (fin mu) (fin u) = some k) ∧
    (mu ≤ 7 → ∀ u : ℝ, 0 ≤ u → u < 1 → u ≤ Spec.cumulative (Spec.poisson mu) (2 ^ 31 - 1) → ∃ k : ℤ, PoissonBy.draw libGammaQ (fin mu) (fin u) = some k) := by
  have hg : ∀ k : ℕ, Spec.poisson mu k = poi mu k := fun k => by rw [Spec.poisson, if_pos (by omega), Int.toNat_natCast, poi]
  choose G hG hd using lib_value h.le
  obtain ⟨c, c7, c31, c2, c3, ht⟩ := TailApprox.poisson_table hG hm
  obtain ⟨hend, hend7⟩ := lib_end h.le c2 (hG c)
  have hcdf : ∀ k : ℕ, PoissonBy.cdf libGammaQ (fin mu) k = fin (G k) := fun k => by rw [PoissonBy.cdf, if_neg (by omega), hG]
  have hdraw : ∀ u : ℝ, PoissonBy.draw libGammaQ (fin mu) (fin u) = (search (fin u) ((table G c).map fin)).bind fun x =>
      if x + 1 = ((table G c).map fin).length then tailLoop (Poisson.pdf (fin mu)) (2 ^ 31 - x) (fin u - fin (G x)) x else some (x : ℤ) := by
    intro u
    rw [PoissonBy.draw, ht, Option.bind_some, tailDraw]
    congr 1; funext x
    rw [hcdf]
  have key := fun u (h1 : u < 1) => TailApprox.draw_spec (poi_nonneg h.le) (fun k => poisson_pdf h (k + 1)) c31 (fun k _ => hd k) h1 (hdraw u)
  rw [cumulative_max hg]
  have e1 : (0 : ℝ) < Limits.double.epsilon ∧ 1024 * Limits.double.epsilon ≤ 1 / 10 ^ 10 := by norm_num [Limits.double]
  have hend' := (abs_le.1 hend).1
  refine ⟨fun x => ?_, inverts_upto hg (poi_nonneg h.le) (poi_sum_le h.le) (by norm_num) (fun u _ h1 => (key u h1).1)
    (fun u _ h1 hu => (key u h1).2 (le_shift hu (by linarith))), fun u _ h1 hu => (key u h1).2 (le_shift hu (by linarith)), fun h7 u _ h1 hu => (key u h1).2 ?_⟩
  · by_cases hx : 0 ≤ x
    · obtain ⟨k, rfl⟩ := Int.eq_ofNat_of_zero_le hx
      refine ⟨G k, hcdf k, ?_⟩
      rw [cumulative_nat hg]; exact hd k
    · refine ⟨0, by rw [PoissonBy.cdf, if_pos (by omega)]; simp, ?_⟩
      rw [Spec.cumulative, show (x + 1).toNat = 0 by omega]; simp
  · have hc : c ≤ 14 := by
      rcases c3 with c3 | c3
      · omega
      · have : (c : ℝ) < 15 := by linarith
        have : c < 15 := by exact_mod_cast this
        omega
    exact le_shift (d := 0) (by rwa [sub_zero]) (by linarith [hend7 hc])

/-- The hypotheses are met by a mean of 100. -/
example : Spec.InvertsUpTo (fun u => PoissonBy.draw libGammaQ (fin 100) (fin u)) (Spec.poisson 100) (1 / 10 ^ 10) :=
  (C95_poisson_partial (mu := 100) (by norm_num) (by norm_num)).2.1

/-- C95, zero_truncated_poisson_dist: the same with an error of 2·10⁻¹⁰, also for tiny means, where the conditional probabilities
are quotients of tiny numbers; 0 is never drawn for a positive deviate. -/
theorem C95_zero_truncated_poisson_partial {mu : ℝ} (h : 0 < mu) (hm : 2 * mu ≤ 2 ^ 31 - 1) :
    (∀ x : ℤ, ∃ y : ℝ, ZTPoissonBy.cdf libGammaQ (fin mu) x = fin y ∧ |y - Spec.cumulative (Spec.ztPoisson mu) x| ≤ 2 * (1 / 10 ^ 10)) ∧
    Spec.InvertsUpTo (fun u => ZTPoissonBy.draw libGammaQ (fin mu) (fin u)) (Spec.ztPoisson mu) (2 * (1 / 10 ^ 10)) ∧
    (∀ u : ℝ, 0 ≤ u → u < 1 → u ≤ Spec.cumulative (Spec.ztPoisson mu) (2 ^ 31 - 1) - 2 * (1 / 10 ^ 10) →
      ∃ k : ℤ, ZTPoissonBy.draw libGammaQ (fin mu) (fin u) = some k) ∧
    (mu ≤ 7 → ∀ u : ℝ, 0 ≤ u → u < 1 → u ≤ Spec.cumulative (Spec.ztPoisson mu) (2 ^ 31 - 1) → ∃ k : ℤ, ZTPoissonBy.draw libGammaQ (fin mu) (fin u) = some k) ∧
    (∀ u : ℝ, 0 ≤ u → u < 1 → ZTPoissonBy.draw libGammaQ (fin mu) (fin u) ≠ some 0) := by
  have hg : ∀ k : ℕ, Spec.ztPoisson mu k = ztp mu k := fun k => by
    rw [Spec.ztPoisson, ztp]
    by_cases hk : k = 0
    · rw [if_neg (by omega), if_pos hk]
    · rw [if_pos (by omega), if_neg hk, Spec.poisson, if_pos (by omega), Int.toNat_natCast, poi]
  have hp : 0 < Real.exp mu - 1 := by have := Real.one_lt_exp_iff.2 h; linarith
  have hp' := one_sub_exp_pos h
  have ee : Real.exp mu * Real.exp (-mu) = 1 := by rw [← Real.exp_add]; simp
  choose Q hQ _hd using lib_value h.le
  set G : ℕ → ℝ := fun k => if k = 0 then 0 else (Real.exp mu * Q k - 1) / (Real.exp mu - 1) with hGdef
  have hG : ∀ k : ℕ, 1 ≤ k → (XR.exp (fin mu) * libGammaQ (ofInt k + 1) (fin mu) - 1) / expm1 (fin mu) = fin (G k) := by
    intro k hk
    rw [hQ, exp_fin, expm1_fin, fin_mul, ofNat_fin, fin_sub, fin_div hp.ne', hGdef]
    simp only [if_neg (show k ≠ 0 by omega), Nat.cast_one]
  have hdiff : ∀ k : ℕ, 1 ≤ k → G k - (Finset.range (k + 1)).sum (ztp mu) = (Q k - (Finset.range (k + 1)).sum (poi mu)) / (1 - Real.exp (-mu)) := by
    intro k hk
    rw [ztp_sum h, hGdef]
    simp only [if_neg (show k ≠ 0 by omega)]
    have : (Real.exp mu * Q k - 1) / (Real.exp mu - 1) = (Q k - Real.exp (-mu)) / (1 - Real.exp (-mu)) := by
      rw [div_eq_div_iff hp.ne' hp'.ne']; linear_combination (1 - Q k) * ee
    rw [this]; ring
  have hd : ∀ k : ℕ, |G k - (Finset.range (k + 1)).sum (ztp mu)| ≤ 2 * (1 / 10 ^ 10) := by
    intro k
    rcases Nat.eq_zero_or_pos k with rfl | hk
    · simp [hGdef, ztp]
    · rw [hdiff k hk, abs_div, abs_of_pos hp', div_le_iff₀ hp']
      exact lib_zt h hk (hQ k)
  obtain ⟨c, c7, c31, c2, c3, ht⟩ := zt_table (G := G) (by simp [hGdef]) hG hm
  have hcdf : ∀ k : ℕ, ZTPoissonBy.cdf libGammaQ (fin mu) k = fin (G k) := by
    intro k
    rw [ZTPoissonBy.cdf]
    rcases Nat.eq_zero_or_pos k with rfl | hk
    · simp [hGdef]
    · rw [if_neg (by omega), hG k hk]
  have hdraw : ∀ u : ℝ, ZTPoissonBy.draw libGammaQ (fin mu) (fin u) = (search (fin u) ((table G c).map fin)).bind fun x =>
      if x + 1 = ((table G c).map fin).length then tailLoop (ZTPoisson.pdf (fin mu)) (2 ^ 31 - x) (fin u - fin (G x)) x else some (x : ℤ) := by
    intro u
    rw [ZTPoissonBy.draw, ht, Option.bind_some, tailDraw]
    congr 1; funext x
    rw [hcdf]
  have key := fun u (h1 : u < 1) => TailApprox.draw_spec (ztp_nonneg h) (fun k => ztp_pdf h (k + 1)) c31 (fun k _ => hd k) h1 (hdraw u)
  rw [cumulative_max hg]
  have hend' := (abs_le.1 (hd c)).1
  refine ⟨fun x => ?_, inverts_upto hg (ztp_nonneg h) (ztp_sum_le h) (by norm_num) (fun u _ h1 => (key u h1).1)
    (fun u _ h1 hu => (key u h1).2 (le_shift hu (by linarith))), fun u _ h1 hu => (key u h1).2 (le_shift hu (by linarith)), fun h7 u _ h1 hu => (key u h1).2 ?_, fun u h0 h1 hu => ?_⟩
  · by_cases hx : 0 ≤ x
    · obtain ⟨k, rfl⟩ := Int.eq_ofNat_of_zero_le hx
      refine ⟨G k, hcdf k, ?_⟩
      rw [cumulative_nat hg]; exact hd k
    · refine ⟨0, by rw [ZTPoissonBy.cdf, if_pos (by omega)]; simp, ?_⟩
      rw [Spec.cumulative, show (x + 1).toNat = 0 by omega]; simp
  · have hc : c ≤ 14 := by
      rcases c3 with c3 | c3
      · omega
      · have : (c : ℝ) < 15 := by linarith
        have : c < 15 := by exact_mod_cast this
        omega
    have h8 := (lib_end h.le c2 (hQ c)).2 hc
    have h9 : 0 ≤ G c - (Finset.range (c + 1)).sum (ztp mu) := by
      rw [hdiff c (by omega)]; exact div_nonneg (by linarith) hp'.le
    exact le_shift (d := 0) (by rwa [sub_zero]) (by linarith)
  · have hne : table G c ≠ [] := fun h => by simpa [h] using table_length G c
    obtain ⟨x, hx, hxl, -, -, -, hz⟩ := search_bounds hne (by rw [table_length]; exact table_last G c) h1
    rw [hdraw, search_fin, hx, Option.bind_some] at hu
    rcases Nat.eq_zero_or_pos x with hx0 | hx0
    · have := hz hx0
      rw [table_lt G (by omega)] at this
      simp [hGdef] at this
      linarith
    · split_ifs at hu with hxc
      · obtain ⟨k, hk⟩ : ∃ k : ℕ, x = k + 1 := ⟨x - 1, by omega⟩
        have hmono : ∀ (fuel : ℕ) (y : XR) (j : ℤ), 1 ≤ j → tailLoop (ZTPoisson.pdf (fin mu)) fuel y j ≠ some 0 := by
          intro fuel
          induction fuel with
          | zero => intro y j _; simp [tailLoop]
          | succ n ih =>
            intro y j hj
            rw [tailLoop]
            split_ifs
            · exact ih _ _ (by omega)
            · simp; omega
        exact hmono _ _ _ (by omega) hu
      · have := Option.some.inj hu
        omega

/-- The hypotheses are met by a tiny mean. -/
example : Spec.InvertsUpTo (fun u => ZTPoissonBy.draw libGammaQ (fin (1 / 10 ^ 30)) (fin u)) (Spec.ztPoisson (1 / 10 ^ 30)) (2 * (1 / 10 ^ 10)) :=
  (C95_zero_truncated_poisson_partial (mu := 1 / 10 ^ 30) (by norm_num) (by norm_num)).2.1

/-- C95, negative_binomial_dist with the library's `Beta_I`: if `r`, the numbers up to `K + 2` and their quotients by `r` are at most
`M`, where the distribution function reaches `1 - 1/4096` at `K` by more than the error, the error is at most `8 ε M`; `ε` is the
machine epsilon.  Missing: distributions so wide that this bound is useless, and that sampling ends for the largest deviates. -/
theorem C95_negative_binomial_partial {p r M : ℝ} {K : ℕ} (h0 : 0 < p) (h1 : p < 1) (hr : 0 < r) (hM : M ≤ 2 ^ 20) (h2 : r ≤ M) (h3 : (K : ℝ) + 2 ≤ M)
    (h4 : ((K : ℝ) + 2) / r ≤ M) (hK : 1 - 1 / 4096 + 8 * Limits.double.epsilon * M ≤ Spec.cumulative (Spec.negBinomial p r) K) :
    (∀ x : ℤ, x ≤ K → ∃ y : ℝ, NegBinomialBy.cdf libBetaI (fin p) (fin r) x = some (fin y) ∧ |y - Spec.cumulative (Spec.negBinomial p r) x| ≤ 8 * Limits.double.epsilon * M) ∧
    Spec.InvertsUpTo (fun u => NegBinomialBy.draw libBetaI (fin p) (fin r) (fin u)) (Spec.negBinomial p r) (8 * Limits.double.epsilon * M) ∧
    (∀ u : ℝ, 0 ≤ u → u < 1 → u ≤ Spec.cumulative (Spec.negBinomial p r) (2 ^ 31 - 1) - 8 * Limits.double.epsilon * M →
      ∃ k : ℤ, NegBinomialBy.draw libBetaI (fin p) (fin r) (fin u) = some k) := by
  have hg : ∀ k : ℕ, Spec.negBinomial p r k = nbi p r k := fun k => by rw [Spec.negBinomial, if_pos (by omega), Int.toNat_natCast, nbi]
  have hM0 : 0 ≤ 8 * Limits.double.epsilon * M := by
    have : (0 : ℝ) ≤ Limits.double.epsilon := by norm_num [Limits.double]
    have : 0 ≤ M := by linarith
    positivity
  have hval : ∀ k : ℕ, ∃ q : ℝ, k ≤ K + 1 → libBetaI (fin p) (fin r) (ofInt ((k : ℤ) + 1)) = some (fin q) ∧
      |q - (Finset.range (k + 1)).sum (nbi p r)| ≤ 8 * Limits.double.epsilon * M := by
    intro k
    by_cases hk : k ≤ K + 1
    · have hk' : (k : ℝ) + 1 ≤ (K : ℝ) + 2 := by
        have : (k : ℝ) ≤ ((K + 1 : ℕ) : ℝ) := by exact_mod_cast hk
        push_cast at this; linarith
      obtain ⟨q, h⟩ := lib_beta h0.le h1.le hr hM h2 (k := k) (by linarith) ((div_le_div_of_nonneg_right hk' hr.le).trans h4)
      exact ⟨q, fun _ => h⟩
    · exact ⟨0, fun h => absurd h hk⟩
  choose G hG using hval
  rw [cumulative_nat hg] at hK
  have hK31 : K < 2 ^ 31 - 1 := by
    have hM' : M ≤ ((2 ^ 20 : ℕ) : ℝ) := by exact_mod_cast hM
    have : (K : ℝ) < ((2 ^ 20 : ℕ) : ℝ) := by linarith
    have : K < 2 ^ 20 := by exact_mod_cast this
    omega
  obtain ⟨c, c0, cK, ht⟩ := nb_table (G := G) hK31 (fun k hk => (hG k (by omega)).1) (by
    have := (abs_le.1 (hG K (by omega)).2).1
    linarith)
  have hdraw : ∀ u : ℝ, u < 1 → NegBinomialBy.draw libBetaI (fin p) (fin r) (fin u) = (search (fin u) ((table G c).map fin)).bind fun x =>
      if x + 1 = ((table G c).map fin).length then tailLoop (NegBinomial.pdf (fin p) (fin r)) (2 ^ 31 - x) (fin u - fin (G x)) x else some (x : ℤ) := by
    intro u hu
    have hne : table G c ≠ [] := fun h => by simpa [h] using table_length G c
    obtain ⟨x, hx, hxl, -⟩ := search_bounds hne (by rw [table_length]; exact table_last G c) hu
    rw [table_length] at hxl
    rw [NegBinomialBy.draw, ht, Option.bind_some, search_fin, hx, Option.bind_some, Option.bind_some]
    congr 1
    rw [NegBinomialBy.cdf, if_neg (by omega), (hG x (by omega)).1, Option.bind_some]
  have key := fun u (hu : u < 1) => TailApprox.draw_spec (nbi_nonneg h0 h1.le hr) (fun k => nbi_pdf h0 h1 hr (k + 1)) (by omega) (fun k hk => (hG k (by omega)).2) hu (hdraw u hu)
  rw [cumulative_max hg]
  have hend' := (abs_le.1 (hG c (by omega)).2).1
  refine ⟨fun x hxK => ?_, inverts_upto hg (nbi_nonneg h0 h1.le hr) (nbi_sum_le h0 h1.le hr) hM0 (fun u _ h1 => (key u h1).1)
    (fun u _ h1 hu => (key u h1).2 (le_shift hu (by linarith))), fun u _ h1 hu => (key u h1).2 (le_shift hu (by linarith))⟩
  by_cases hx : 0 ≤ x
  · obtain ⟨k, rfl⟩ := Int.eq_ofNat_of_zero_le hx
    refine ⟨G k, by rw [NegBinomialBy.cdf, if_neg (by omega), (hG k (by omega)).1], ?_⟩
    rw [cumulative_nat hg]; exact (hG k (by omega)).2
  · refine ⟨0, by rw [NegBinomialBy.cdf, if_pos (by omega)]; simp, ?_⟩
    rw [Spec.cumulative, show (x + 1).toNat = 0 by omega]; simpa using hM0

/-- The hypotheses are met by `p = 1/2` and `r = 1`, with an error of 2^-43. -/
example : Spec.InvertsUpTo (fun u => NegBinomialBy.draw libBetaI (fin (1 / 2)) (fin 1) (fin u)) (Spec.negBinomial (1 / 2) 1) (8 * Limits.double.epsilon * 64) := by
  refine (C95_negative_binomial_partial (K := 20) (by norm_num) (by norm_num) (by norm_num) (by norm_num) (by norm_num) (by norm_num) (by norm_num) ?_).2.1
  have hg : ∀ k : ℕ, Spec.negBinomial (1 / 2) 1 k = 1 / 2 * (1 / 2) ^ k := fun k => by
    rw [Spec.negBinomial, if_pos (by omega), Int.toNat_natCast, Real.Gamma_one, add_comm 1, Real.Gamma_nat_eq_factorial, Real.rpow_one, one_mul, div_self (by positivity)]
    norm_num
  rw [cumulative_nat hg, ← Finset.mul_sum, geom_sum_eq (by norm_num)]
  norm_num [Limits.double]

/-- With the exact incomplete Gamma function the definitions are those of C57. -/
example : PoissonBy.draw GammaQ = Poisson.draw ∧ ZTPoissonBy.draw GammaQ = ZTPoisson.draw := by
  have h1 : ∀ mu fuel x, PoissonBy.tableLoop GammaQ mu fuel x = Poisson.tableLoop mu fuel x := by
    intro mu fuel
    induction fuel with
    | zero => intro x; rfl
    | succ n ih => intro x; rw [PoissonBy.tableLoop, Poisson.tableLoop, ih]
  have h2 : ∀ mu fuel x, ZTPoissonBy.tableLoop GammaQ mu fuel x = ZTPoisson.tableLoop mu fuel x := by
    intro mu fuel
    induction fuel with
    | zero => intro x; rfl
    | succ n ih => intro x; rw [ZTPoissonBy.tableLoop, ZTPoisson.tableLoop, ih]
  constructor
  · funext mu u; rw [PoissonBy.draw, Poisson.draw, PoissonBy.table, Poisson.table, h1]; rfl
  · funext mu u; rw [ZTPoissonBy.draw, ZTPoisson.draw, ZTPoissonBy.table, ZTPoisson.table, h2]; rfl

end Trng.Props
