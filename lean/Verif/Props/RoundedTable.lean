import Verif.Proofs.RoundedHyper
import Verif.Props.RoundedInverse

/-! Property C98, the law up to a bound on the error for moderate parameters. -/
namespace Trng.Props
open XR Spec Rounded PeriodLaw
open scoped Nat

variable {M : Machine} {d : ℝ}

/-- C98, binomial_dist with at most 10^6 trials: in `double` the sample is the one that inversion of the distribution function gives, up to an error of
about 6e-16 n² + 3e-13 n in the deviate. -/
theorem C98_binomial (D : DoubleWithin M d) (hd : d ≤ 2 ^ (-50 : ℤ)) {p : ℝ} (p0 : 2 ^ (-53 : ℤ) ≤ p) (p1 : p ≤ 1 - 2 ^ (-53 : ℤ)) {n : ℕ} (hn : n ≤ 1000000) {u : ℝ} (u0 : 0 ≤ u) (u1 : u < 1) :
    ∃ k : ℤ, (Rounded.binomial M (fin p) n).draw (fin u) = some k ∧ 0 ≤ k ∧ k ≤ n ∧
      upTo 0 (Spec.binomial p n) (k - 1) - (6e-16 * n ^ 2 + 3e-13 * n + 7e-15) ≤ u ∧ u ≤ upTo 0 (Spec.binomial p n) k + (6e-16 * n ^ 2 + 3e-13 * n + 7e-15) := by
  have h53 : (0 : ℝ) < 2 ^ (-53 : ℤ) := by positivity
  obtain ⟨k, hk, hkn, k1, k2⟩ := binom_search D (hd.trans (by norm_num)) p0 p1 hn u0 u1
  obtain ⟨s, -, -⟩ := binomial_sum (p := p) (by linarith) (by linarith) n
  refine ⟨k, hk, by omega, by omega, ?_⟩
  have e2 := s (k + 1)
  rw [show ((k + 1 : ℕ) : ℤ) - 1 = (k : ℤ) by push_cast; ring] at e2
  rw [s, e2]
  exact ⟨k1, k2⟩

example : ∃ k : ℤ, (Rounded.binomial doubleMachine (fin (1 / 3)) 10).draw (fin (1 / 2)) = some k ∧ 0 ≤ k ∧ k ≤ (10 : ℕ) ∧
    upTo 0 (Spec.binomial (1 / 3) 10) (k - 1) - (6e-16 * ((10 : ℕ) : ℝ) ^ 2 + 3e-13 * (10 : ℕ) + 7e-15) ≤ 1 / 2 ∧
    1 / 2 ≤ upTo 0 (Spec.binomial (1 / 3) 10) k + (6e-16 * ((10 : ℕ) : ℝ) ^ 2 + 3e-13 * (10 : ℕ) + 7e-15) :=
  C98_binomial C100_machine (by norm_num) (by norm_num) (by norm_num) (by norm_num) (by norm_num) (by norm_num)

/-- C98, hypergeometric_dist with at most 900 balls, for the case `d = m` in which the class is right on exact reals (C55).  The library's `lgamma`
has the relative error of the other functions. -/
theorem C98_hypergeometric_partial (D : DoubleWithin M d) (hd : d ≤ 2 ^ (-50 : ℤ)) (hg : ∀ k : ℕ, k ≤ 900 → Close d (M.lnGamma (fin (k + 1))) (Real.log (k ! : ℕ)))
    {n m : ℕ} (hm : m ≤ n) (hn : n ≤ 900) {u : ℝ} (u0 : 0 ≤ u) (u1 : u < 1) :
    ∃ k : ℤ, (Rounded.hypergeometric M n m m).draw (fin u) = some k ∧ max 0 (2 * m - n : ℤ) ≤ k ∧ k ≤ m ∧
      upTo (max 0 (2 * m - n : ℤ)) (Spec.hypergeometric n m m) (k - 1) - (9e-14 * n + 8e-15) ≤ u ∧
      u ≤ upTo (max 0 (2 * m - n : ℤ)) (Spec.hypergeometric n m m) k + (9e-14 * n + 8e-15) := by
  obtain ⟨k, hk, hkn, k1, k2⟩ := hyper_search D (hd.trans (by norm_num)) hg hm hn u0 u1
  obtain ⟨s, -, -⟩ := hyper_sum hm
  have hlo : max 0 (2 * m - n : ℤ) = (hgMin n m m : ℤ) := by rw [hgMin]; omega
  have hcount : hgMin n m m + hgCount n m m = m + 1 := by rw [hgCount, hgMin]; omega
  rw [hlo]
  refine ⟨((hgMin n m m + k : ℕ) : ℤ), hk, by omega, by omega, ?_⟩
  have e2 := s (k + 1) (by omega)
  rw [show ((hgMin n m m + (k + 1) : ℕ) : ℤ) - 1 = ((hgMin n m m + k : ℕ) : ℤ) by push_cast; ring] at e2
  rw [s k (by omega), e2]
  exact ⟨k1, k2⟩

/-- A correctly rounded `lgamma` will do. -/
theorem C98_machine (k : ℕ) (h : k ≤ 900) : Close 1.2e-16 (doubleMachine.lnGamma (fin (k + 1))) (Real.log (k ! : ℕ)) := by
  rw [dbl_lnGamma]
  obtain ⟨l0, l1⟩ := log_fact_bounds h le_rfl
  obtain ⟨r, er, hr⟩ := Inverse.rnd_err C100_machine (x := Real.log (k ! : ℕ)) (by
    rw [abs_of_nonneg l0]
    refine l1.trans (le_trans ?_ (zpow_le_zpow_right₀ one_le_two (show (20 : ℤ) ≤ 1020 by norm_num)))
    norm_num)
  exact ⟨r, er, hr⟩

example : ∃ k : ℤ, (Rounded.hypergeometric doubleMachine (10 : ℕ) (4 : ℕ) (4 : ℕ)).draw (fin (1 / 3)) = some k ∧ max 0 (2 * (4 : ℕ) - (10 : ℕ) : ℤ) ≤ k ∧ k ≤ (4 : ℕ) ∧
    upTo (max 0 (2 * (4 : ℕ) - (10 : ℕ) : ℤ)) (Spec.hypergeometric 10 4 4) (k - 1) - (9e-14 * (10 : ℕ) + 8e-15) ≤ 1 / 3 ∧
    1 / 3 ≤ upTo (max 0 (2 * (4 : ℕ) - (10 : ℕ) : ℤ)) (Spec.hypergeometric 10 4 4) k + (9e-14 * (10 : ℕ) + 8e-15) :=
  C98_hypergeometric_partial C100_machine (by norm_num) C98_machine (by norm_num) (by norm_num) (by norm_num) (by norm_num)

/-- C98, geometric_dist with p from 1e-6 on: the sample is the one that inversion of the distribution function gives. -/
theorem C98_geometric_law (D : DoubleWithin M d) (hd : d ≤ 2 ^ (-50 : ℤ)) {p u : ℝ} (p0 : 1e-6 ≤ p) (p1 : p ≤ 1 - 2 ^ (-53 : ℤ)) (u0 : 2 ^ (-52 : ℤ) ≤ u) (u1 : u < 1) :
    ∃ k : ℤ, geometricDraw M (Rounded.geometric M (fin p)) (fin u) = some k ∧ 0 ≤ k ∧
      upTo 0 (Spec.geometric p) (k - 1) - (9e-14 + 1.1e-14 / p) ≤ 1 - u ∧ 1 - u ≤ upTo 0 (Spec.geometric p) k + (9e-14 + 1.1e-14 / p) :=
  geometric_draw D (hd.trans (by norm_num)) p0 p1 u0 u1

example : ∃ k : ℤ, geometricDraw doubleMachine (Rounded.geometric doubleMachine (fin (1 / 3))) (fin (1 / 5)) = some k ∧ 0 ≤ k ∧
    upTo 0 (Spec.geometric (1 / 3)) (k - 1) - (9e-14 + 1.1e-14 / (1 / 3)) ≤ 1 - 1 / 5 ∧ 1 - 1 / 5 ≤ upTo 0 (Spec.geometric (1 / 3)) k + (9e-14 + 1.1e-14 / (1 / 3)) :=
  C98_geometric_law C100_machine (by norm_num) (by norm_num) (by norm_num) (by norm_num) (by norm_num)

end Trng.Props
