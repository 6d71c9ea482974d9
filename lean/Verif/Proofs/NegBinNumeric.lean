import Verif.Proofs.TailApprox
import Verif.Props.BetaFun

/-! Proofs for negative_binomial_dist with the library's `Beta_I`. -/
namespace Trng.TailApprox
open Discrete XR MeasureTheory Special Props BetaSeries

/-- The distribution function is a regularised incomplete Beta function. -/
theorem reg_nbi {p r : ℝ} (h0 : 0 ≤ p) (hr : 0 < r) (k : ℕ) : Spec.regBeta p r ((k : ℝ) + 1) = (Finset.range (k + 1)).sum (nbi p r) := by
  rw [← nbi_integral h0 hr k, Spec.regBeta, beta_eq hr (by positivity), div_div_eq_mul_div, mul_div_assoc]

/-- The value of the library. -/
theorem lib_beta {p r M : ℝ} (h0 : 0 ≤ p) (h1 : p ≤ 1) (hr : 0 < r) (hM : M ≤ 2 ^ 20) (h2 : r ≤ M) {k : ℕ} (h3 : (k : ℝ) + 1 ≤ M) (h4 : ((k : ℝ) + 1) / r ≤ M) :
    ∃ q : ℝ, libBetaI (fin p) (fin r) (ofInt ((k : ℤ) + 1)) = some (fin q) ∧ |q - (Finset.range (k + 1)).sum (nbi p r)| ≤ 8 * Limits.double.epsilon * M := by
  have hk : (0 : ℝ) < (k : ℝ) + 1 := by positivity
  have hk1 : (1 : ℝ) ≤ (k : ℝ) + 1 := by simp
  have e : ofInt ((k : ℤ) + 1) = fin ((k : ℝ) + 1) := by simp [ofInt]
  have h5 : r / ((k : ℝ) + 1) ≤ M := (div_le_self hr.le hk1).trans h2
  have hM1 : 1 ≤ M := hk1.trans h3
  rw [div_le_iff₀ hr] at h4
  obtain ⟨y, e1, e2⟩ := C77_accuracy_partial (L := .double) (M := M) (by norm_num [Limits.double]) h0 h1 hr hk (by norm_num at hM ⊢; nlinarith)
    (by norm_num at hM ⊢; nlinarith) (by norm_num at hM ⊢; nlinarith) h2 h3 h5 (by rwa [div_le_iff₀ hr]) (by norm_num [Limits.double] at hM ⊢; linarith)
  refine ⟨y, by rw [libBetaI, e, C76_beta _ hr hk]; exact e1, ?_⟩
  rw [← reg_nbi h0 hr]
  refine e2.trans (mul_le_of_le_one_right ?_ ?_)
  · have : (0 : ℝ) ≤ Limits.double.epsilon := by norm_num [Limits.double]
    have : 0 ≤ M := by linarith
    positivity
  · have a := regBeta_nonneg h0 h1 hr hk
    have b := regBeta_le_one h0 h1 hr hk
    split_ifs <;> linarith

theorem nb_tableLoop {BI : XR → XR → XR → Option XR} {p r : ℝ} {G : ℕ → ℝ} {K : ℕ} (hK : K < 2 ^ 31 - 1)
    (hG : ∀ k : ℕ, k ≤ K → BI (fin p) (fin r) (ofInt ((k : ℤ) + 1)) = some (fin (G k))) (hF : 1 - 1 / 4096 ≤ G K) :
    ∀ (fuel x : ℕ) (q : ℝ), fuel + x = 2 ^ 31 → x ≤ K + 1 → (x = 0 → q = 0) → (x ≠ 0 → q = G (x - 1)) →
    ∃ c, x ≤ c ∧ c ≤ K + 1 ∧ (x = 0 → 0 < c) ∧ NegBinomialBy.tableLoop BI (fin p) (fin r) fuel x (fin q) =
      some (((List.range' x (c - x)).map fun k => fin (G k)) ++ [fin 1]) := by
  have hlim : (1 : XR) - 1 / 4096 = fin (1 - 1 / 4096) := by
    rw [ofNat_fin, ofNat_fin, fin_div (by norm_num), fin_sub]; norm_num
  intro fuel
  induction fuel with
  | zero => intro x q h1 h2; omega
  | succ n ih =>
    intro x q hx hxK hq0 hq1
    rw [NegBinomialBy.tableLoop, hlim]
    by_cases hc : q < 1 - 1 / 4096
    · rw [if_pos ((fin_lt _ _).2 hc)]
      have hxK' : x ≤ K := by
        by_contra h
        have : x = K + 1 := by omega
        subst this
        have := hq1 (by omega)
        rw [Nat.add_sub_cancel] at this
        rw [this] at hc
        linarith
      obtain ⟨c, h1', h2, h3, h4⟩ := ih (x + 1) (G x) (by omega) (by omega) (by omega) (by simp)
      refine ⟨c, by omega, h2, fun _ => by omega, ?_⟩
      rw [NegBinomialBy.cdf, if_neg (by omega), hG x hxK', Option.bind_some]
      push_cast at h4
      rw [h4, Option.map_some, show c - x = (c - (x + 1)) + 1 by omega, List.range'_succ]
      rfl
    · rw [if_neg (fun h => hc ((fin_lt _ _).1 h))]
      refine ⟨x, le_rfl, hxK, fun h => ?_, ?_⟩
      · rw [hq0 h] at hc
        norm_num at hc
      · simp

theorem nb_table {BI : XR → XR → XR → Option XR} {p r : ℝ} {G : ℕ → ℝ} {K : ℕ} (hK : K < 2 ^ 31 - 1)
    (hG : ∀ k : ℕ, k ≤ K → BI (fin p) (fin r) (ofInt ((k : ℤ) + 1)) = some (fin (G k))) (hF : 1 - 1 / 4096 ≤ G K) :
    ∃ c, 0 < c ∧ c ≤ K + 1 ∧ NegBinomialBy.table BI (fin p) (fin r) = some ((table G c).map fin) := by
  obtain ⟨c, -, h2, h3, h4⟩ := nb_tableLoop hK hG hF (2 ^ 31) 0 0 (by norm_num) (by omega) (fun _ => rfl) (fun h => absurd rfl h)
  refine ⟨c, h3 rfl, h2, ?_⟩
  rw [NegBinomialBy.table]
  have h4' : NegBinomialBy.tableLoop BI (fin p) (fin r) (2 ^ 31) 0 (fin 0) = _ := h4
  rw [show (0 : XR) = fin 0 by simp, h4', table, List.range_eq_range']
  simp

end Trng.TailApprox
