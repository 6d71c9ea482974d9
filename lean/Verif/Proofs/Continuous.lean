import Verif.Spec.Continuous
import Mathlib.MeasureTheory.Integral.IntegralEqImproper
import Mathlib.Analysis.SpecialFunctions.Log.Deriv
import Mathlib.Analysis.SpecialFunctions.Pow.Deriv
import Mathlib.Analysis.SpecialFunctions.Trigonometric.ArctanDeriv

/-! The relations of Spec/Continuous.lean from a few facts about real functions. -/
namespace Trng
open XR MeasureTheory Filter Topology Set

namespace XR
@[simp] theorem ninf_lt_fin (x : ℝ) : ninf < fin x := trivial
@[simp] theorem fin_lt_pinf (x : ℝ) : fin x < pinf := trivial
@[simp] theorem ninf_le_fin (x : ℝ) : ninf ≤ fin x := trivial
@[simp] theorem fin_le_pinf (x : ℝ) : fin x ≤ pinf := trivial
@[simp] theorem ninf_lt_pinf : ninf < pinf := trivial
@[simp] theorem ninf_le_pinf : ninf ≤ pinf := trivial
@[simp] theorem not_fin_lt_ninf (x : ℝ) : ¬ fin x < ninf := id
@[simp] theorem not_fin_le_ninf (x : ℝ) : ¬ fin x ≤ ninf := id
@[simp] theorem not_pinf_lt_fin (x : ℝ) : ¬ pinf < fin x := id
@[simp] theorem not_pinf_le_fin (x : ℝ) : ¬ pinf ≤ fin x := id
@[simp] theorem not_pinf_le_ninf : ¬ pinf ≤ ninf := id
@[simp] theorem not_pinf_lt_ninf : ¬ pinf < ninf := id
@[simp] theorem not_nan_lt (x : XR) : ¬ nan < x := by cases x <;> exact id
@[simp] theorem not_nan_le (x : XR) : ¬ nan ≤ x := by cases x <;> exact id
@[simp] theorem not_lt_nan (x : XR) : ¬ x < nan := by cases x <;> exact id
@[simp] theorem not_le_nan (x : XR) : ¬ x ≤ nan := by cases x <;> exact id
@[simp] theorem not_eq_nan (x : XR) : ¬ eq x nan := by cases x <;> exact id
@[simp] theorem not_nan_eq (x : XR) : ¬ eq nan x := by cases x <;> exact id
@[simp] theorem neg_nan : -nan = nan := rfl
@[simp] theorem neg_pinf : -pinf = ninf := rfl
@[simp] theorem neg_ninf : -ninf = pinf := rfl
@[simp] theorem nan_add' (x : XR) : nan + x = nan := by cases x <;> rfl
@[simp] theorem add_nan' (x : XR) : x + nan = nan := by cases x <;> rfl
@[simp] theorem nan_sub (x : XR) : nan - x = nan := by cases x <;> rfl
@[simp] theorem sub_nan (x : XR) : x - nan = nan := by cases x <;> rfl
@[simp] theorem nan_mul (x : XR) : nan * x = nan := by cases x <;> rfl
@[simp] theorem mul_nan (x : XR) : x * nan = nan := by cases x <;> rfl
@[simp] theorem nan_div (x : XR) : nan / x = nan := by cases x <;> rfl
@[simp] theorem div_nan' (x : XR) : x / nan = nan := by cases x <;> rfl
@[simp] theorem ln_nan : ln nan = nan := rfl
@[simp] theorem sqrt_nan : sqrt nan = nan := rfl
@[simp] theorem sin_nan : sin nan = nan := rfl
@[simp] theorem cos_nan : cos nan = nan := rfl
@[simp] theorem atan_nan : atan nan = nan := rfl
@[simp] theorem exp_nan : XR.exp nan = nan := rfl
@[simp] theorem exp_ninf : XR.exp ninf = fin 0 := rfl
@[simp] theorem exp_pinf : XR.exp pinf = pinf := rfl
@[simp] theorem expm1_ninf : XR.expm1 ninf = fin (-1) := rfl
@[simp] theorem expm1_pinf : XR.expm1 pinf = pinf := rfl
@[simp] theorem atan_pinf : atan pinf = fin (Real.pi / 2) := rfl
@[simp] theorem atan_ninf : atan ninf = fin (-(Real.pi / 2)) := rfl
@[simp] theorem abs_pinf : XR.abs pinf = pinf := rfl
@[simp] theorem abs_ninf : XR.abs ninf = pinf := rfl
@[simp] theorem ln_pinf : ln pinf = pinf := rfl
@[simp] theorem sqrt_pinf : sqrt pinf = pinf := rfl
theorem ln_zero' : ln (fin 0) = ninf := by simp [ln]
theorem pow_nan {y : ℝ} (h : y ≠ 0) : pow nan (fin y) = nan := by rw [pow, if_neg h]
theorem pow_zero' {y : ℝ} (h : 0 < y) : pow (fin 0) (fin y) = fin 0 := by
  rw [pow, if_neg h.ne', if_neg (lt_irrefl _), if_pos rfl, if_pos h]
theorem pow_pinf_pos {y : ℝ} (h : 0 < y) : pow pinf (fin y) = pinf := by rw [pow, if_neg h.ne', if_pos h]
theorem pow_pinf_neg {y : ℝ} (h : y < 0) : pow pinf (fin y) = fin 0 := by rw [pow, if_neg h.ne, if_neg (not_lt.2 h.le)]
theorem infSign_pos {x : ℝ} (h : 0 < x) : infSign x = pinf := if_pos h
theorem infSign_neg {x : ℝ} (h : x < 0) : infSign x = ninf := by rw [infSign, if_neg (not_lt.2 h.le), if_pos h]
theorem fin_mul_pinf (x : ℝ) : fin x * pinf = infSign x := rfl
theorem fin_mul_ninf (x : ℝ) : fin x * ninf = infSign (-x) := rfl
theorem pinf_mul_fin (x : ℝ) : pinf * fin x = infSign x := rfl
theorem ninf_mul_fin (x : ℝ) : ninf * fin x = infSign (-x) := rfl
theorem pinf_div_fin {x : ℝ} (h : 0 ≤ x) : pinf / fin x = pinf := if_neg (not_lt.2 h)
theorem ninf_div_fin {x : ℝ} (h : 0 ≤ x) : ninf / fin x = ninf := if_neg (not_lt.2 h)
@[simp] theorem fin_add_pinf (x : ℝ) : fin x + pinf = pinf := rfl
@[simp] theorem fin_add_ninf (x : ℝ) : fin x + ninf = ninf := rfl
@[simp] theorem pinf_add_fin (x : ℝ) : pinf + fin x = pinf := rfl
@[simp] theorem ninf_add_fin (x : ℝ) : ninf + fin x = ninf := rfl
@[simp] theorem fin_sub_pinf (x : ℝ) : fin x - pinf = ninf := rfl
@[simp] theorem fin_sub_ninf (x : ℝ) : fin x - ninf = pinf := rfl
@[simp] theorem pinf_sub_fin (x : ℝ) : pinf - fin x = pinf := rfl
@[simp] theorem ninf_sub_fin (x : ℝ) : ninf - fin x = ninf := rfl
@[simp] theorem fin_inj (x y : ℝ) : fin x = fin y ↔ x = y := ⟨fun h => by injection h, fun h => by rw [h]⟩

/-- Not between 0 and 1. -/
theorem outside {x : XR} (h : ¬(0 ≤ x ∧ x ≤ 1)) : x = nan ∨ x < 0 ∨ 1 < x := by
  cases x with
  | nan => exact Or.inl rfl
  | ninf => exact Or.inr (Or.inl trivial)
  | pinf => exact Or.inr (Or.inr trivial)
  | fin x =>
    refine Or.inr ?_
    simp only [ofNat_fin, Nat.cast_zero, Nat.cast_one, fin_le, fin_lt, not_and_or, not_le] at *
    exact h
end XR

/-- The facts about a distribution that determine the rest: the real functions `F`, `f`, `G` behind cdf, pdf and icdf. -/
structure CdfData (D : ContDist) (F f G : ℝ → ℝ) (B : Set ℝ) : Prop where
  cdf : ∀ x, D.cdf (fin x) = fin (F x)
  pdf : ∀ x, x ∉ B → D.pdf (fin x) = fin (f x)
  icdf : ∀ u, 0 < u → u < 1 → D.icdf (fin u) = fin (G u)
  lower : D.min = ninf ∨ ∃ a, D.min = fin a
  upper : D.max = pinf ∨ ∃ b, D.max = fin b
  order : D.min < D.max
  below : ∀ x, fin x ≤ D.min → F x = 0
  above : ∀ x, D.max ≤ fin x → F x = 1
  mono : ∀ x y, D.min < fin x → x ≤ y → fin y < D.max → F x ≤ F y
  right : ∀ u, 0 < u → u < 1 → F (G u) = u
  left : ∀ x, D.min < fin x → fin x < D.max → 0 < F x ∧ F x < 1 ∧ G (F x) = x
  finite : B.Finite
  deriv : ∀ x, x ∉ B → HasDerivAt F (f x) x
  nonneg : ∀ x, x ∉ B → 0 ≤ f x

namespace CdfData
variable {D : ContDist} {F f G : ℝ → ℝ} {B : Set ℝ}

theorem le_or_lt_min (h : CdfData D F f G B) (x : ℝ) : fin x ≤ D.min ∨ D.min < fin x := by
  rcases h.lower with e | ⟨a, e⟩ <;> rw [e]
  · exact Or.inr trivial
  · simpa using le_or_gt x a

theorem le_or_lt_max (h : CdfData D F f G B) (x : ℝ) : D.max ≤ fin x ∨ fin x < D.max := by
  rcases h.upper with e | ⟨a, e⟩ <;> rw [e]
  · exact Or.inr trivial
  · simpa using le_or_gt a x

theorem max_le_trans (h : CdfData D F f G B) {x y : ℝ} (hx : D.max ≤ fin x) (hxy : x ≤ y) : D.max ≤ fin y := by
  rcases h.upper with e | ⟨a, e⟩ <;> rw [e] at hx ⊢
  · exact hx.elim
  · exact le_trans (α := ℝ) hx hxy

theorem le_min_trans (h : CdfData D F f G B) {x y : ℝ} (hx : fin x ≤ D.min) (hxy : y ≤ x) : fin y ≤ D.min := by
  rcases h.lower with e | ⟨a, e⟩ <;> rw [e] at hx ⊢
  · exact hx.elim
  · exact le_trans (α := ℝ) hxy hx

theorem range (h : CdfData D F f G B) (x : ℝ) : 0 ≤ F x ∧ F x ≤ 1 := by
  rcases h.le_or_lt_min x with h1 | h1
  · rw [h.below x h1]; norm_num
  rcases h.le_or_lt_max x with h2 | h2
  · rw [h.above x h2]; norm_num
  · exact ⟨(h.left x h1 h2).1.le, (h.left x h1 h2).2.1.le⟩

theorem monotone (h : CdfData D F f G B) : Monotone F := by
  intro x y hxy
  rcases h.le_or_lt_min x with h1 | h1
  · rw [h.below x h1]; exact (h.range y).1
  rcases h.le_or_lt_max y with h2 | h2
  · rw [h.above y h2]; exact (h.range x).2
  · exact h.mono x y h1 hxy h2

theorem inside (h : CdfData D F f G B) {x : ℝ} (h0 : 0 < F x) (h1 : F x < 1) : D.min < fin x ∧ fin x < D.max := by
  constructor
  · refine (h.le_or_lt_min x).resolve_left fun hx => ?_
    rw [h.below x hx] at h0; exact lt_irrefl _ h0
  · refine (h.le_or_lt_max x).resolve_left fun hx => ?_
    rw [h.above x hx] at h1; exact lt_irrefl _ h1

theorem inverseCdf (h : CdfData D F f G B) : Spec.InverseCdf D := by
  constructor
  · intro u h0 h1
    have hr := h.right u h0 h1
    have hi := h.inside (x := G u) (by rwa [hr]) (by rwa [hr])
    exact ⟨G u, h.icdf u h0 h1, hi.1, hi.2, by rw [h.cdf, hr]⟩
  · intro x h1 h2
    obtain ⟨a, b, c⟩ := h.left x h1 h2
    rw [h.cdf, h.icdf _ a b, c]

theorem tendsto_bot (h : CdfData D F f G B) : Tendsto F atBot (𝓝 0) := by
  rw [Metric.tendsto_nhds]
  intro e he
  have hm : 0 < min (e / 2) (1 / 2) := lt_min (by linarith) (by norm_num)
  have hr := h.right (min (e / 2) (1 / 2)) hm (lt_of_le_of_lt (min_le_right _ _) (by norm_num))
  filter_upwards [eventually_le_atBot (G (min (e / 2) (1 / 2)))] with x hx
  have h1 := h.monotone hx
  rw [hr] at h1
  rw [Real.dist_eq, sub_zero, abs_of_nonneg (h.range x).1]
  exact lt_of_le_of_lt (h1.trans (min_le_left _ _)) (by linarith)

theorem tendsto_top (h : CdfData D F f G B) : Tendsto F atTop (𝓝 1) := by
  rw [Metric.tendsto_nhds]
  intro e he
  have hm : 0 < min (e / 2) (1 / 2) := lt_min (by linarith) (by norm_num)
  have hm2 : min (e / 2) (1 / 2) ≤ 1 / 2 := min_le_right _ _
  have hr := h.right (1 - min (e / 2) (1 / 2)) (by linarith) (by linarith)
  filter_upwards [eventually_ge_atTop (G (1 - min (e / 2) (1 / 2)))] with x hx
  have h1 := h.monotone hx
  rw [hr] at h1
  rw [Real.dist_eq, abs_sub_comm, abs_of_nonneg (by linarith [(h.range x).2])]
  have := min_le_left (e / 2) (1 / 2)
  linarith

theorem continuous (h : CdfData D F f G B) : Continuous F := by
  rw [continuous_iff_continuousAt]
  intro x
  rw [ContinuousAt, Metric.tendsto_nhds]
  intro e he
  have hR : ∀ᶠ y in 𝓝 x, F y < F x + e := by
    rcases lt_or_ge (F x) 1 with h1 | h1
    · obtain ⟨v, hv1, hv2⟩ := exists_between (lt_min h1 (show F x < F x + e by linarith))
      have hr := h.right v (lt_of_le_of_lt (h.range x).1 hv1) (hv2.trans_le (min_le_left _ _))
      have hx : x < G v := by
        by_contra hc
        have := h.monotone (not_lt.1 hc)
        rw [hr] at this; linarith
      filter_upwards [Iio_mem_nhds hx] with y hy
      have := h.monotone (le_of_lt hy)
      rw [hr] at this
      exact lt_of_le_of_lt this (hv2.trans_le (min_le_right _ _))
    · exact Eventually.of_forall fun y => by linarith [(h.range y).2]
  have hL : ∀ᶠ y in 𝓝 x, F x - e < F y := by
    rcases lt_or_ge 0 (F x) with h1 | h1
    · obtain ⟨v, hv1, hv2⟩ := exists_between (max_lt h1 (show F x - e < F x by linarith))
      have hr := h.right v (lt_of_le_of_lt (le_max_left _ _) hv1) (lt_of_lt_of_le hv2 (h.range x).2)
      have hx : G v < x := by
        by_contra hc
        have := h.monotone (not_lt.1 hc)
        rw [hr] at this; linarith
      filter_upwards [Ioi_mem_nhds hx] with y hy
      have := h.monotone (le_of_lt hy)
      rw [hr] at this
      exact lt_of_lt_of_le (lt_of_le_of_lt (le_max_right _ _) hv1) this
    · exact Eventually.of_forall fun y => by linarith [(h.range y).1]
  filter_upwards [hR, hL] with y h1 h2
  rw [Real.dist_eq, abs_lt]
  constructor <;> linarith

theorem integral_Ioc (h : CdfData D F f G B) : ∀ (n : ℕ) {a b : ℝ}, a ≤ b → (h.finite.toFinset.filter fun x => a < x ∧ x < b).card = n →
    IntegrableOn f (Ioc a b) ∧ ∫ t in Ioc a b, f t = F b - F a := by
  intro n
  induction n using Nat.strong_induction_on with
  | _ n ih =>
    intro a b hab hn
    by_cases hB : ∃ c ∈ B, a < c ∧ c < b
    · obtain ⟨c, hc, h1, h2⟩ := hB
      have hcm : c ∈ h.finite.toFinset.filter fun x => a < x ∧ x < b := by simp [hc, h1, h2]
      have hl : (h.finite.toFinset.filter fun x => a < x ∧ x < c).card < n := by
        rw [← hn]
        refine Finset.card_lt_card ⟨fun x hx => ?_, fun hs => ?_⟩
        · simp only [Finset.mem_filter] at hx ⊢
          exact ⟨hx.1, hx.2.1, hx.2.2.trans h2⟩
        · have := hs hcm
          simp at this
      have hr : (h.finite.toFinset.filter fun x => c < x ∧ x < b).card < n := by
        rw [← hn]
        refine Finset.card_lt_card ⟨fun x hx => ?_, fun hs => ?_⟩
        · simp only [Finset.mem_filter] at hx ⊢
          exact ⟨hx.1, h1.trans hx.2.1, hx.2.2⟩
        · have := hs hcm
          simp at this
      obtain ⟨i1, e1⟩ := ih _ hl h1.le rfl
      obtain ⟨i2, e2⟩ := ih _ hr h2.le rfl
      rw [← Ioc_union_Ioc_eq_Ioc h1.le h2.le]
      refine ⟨i1.union i2, ?_⟩
      rw [setIntegral_union (by rw [Set.disjoint_left]; intro x hx hy; exact absurd hx.2 (not_le.2 hy.1)) measurableSet_Ioc i1 i2, e1, e2]
      ring
    · push Not at hB
      have hd : ∀ x ∈ Ioo a b, x ∉ B := fun x hx hxB => absurd hx.2 (not_lt.2 (hB x hxB hx.1))
      have hi : IntegrableOn f (Ioc a b) := intervalIntegral.integrableOn_deriv_of_nonneg h.continuous.continuousOn
        (fun x hx => h.deriv x (hd x hx)) (fun x hx => h.nonneg x (hd x hx))
      refine ⟨hi, ?_⟩
      rw [← intervalIntegral.integral_of_le hab]
      exact intervalIntegral.integral_eq_sub_of_hasDerivAt_of_le hab h.continuous.continuousOn (fun x hx => h.deriv x (hd x hx))
        ((intervalIntegrable_iff_integrableOn_Ioc_of_le hab).2 hi)

theorem integrable_Iic (h : CdfData D F f G B) (x : ℝ) : IntegrableOn f (Iic x) := by
  have hint : ∀ a b : ℝ, a ≤ b → IntegrableOn f (Ioc a b) := fun a b hab => (h.integral_Ioc _ hab rfl).1
  refine integrableOn_Iic_of_intervalIntegral_norm_bounded (a := fun y : ℝ => y) (l := atBot) 1 x (fun y => ?_) tendsto_id ?_
  · rcases le_or_gt y x with hy | hy
    · exact hint y x hy
    · rw [Ioc_eq_empty (not_lt.2 hy.le)]; exact integrableOn_empty
  · filter_upwards [eventually_le_atBot x] with y hy
    have e : ∫ t in y..x, ‖f t‖ = ∫ t in y..x, f t := by
      rw [intervalIntegral.integral_of_le hy, intervalIntegral.integral_of_le hy]
      refine setIntegral_congr_ae measurableSet_Ioc ?_
      have hz : volume B = 0 := h.finite.measure_zero volume
      filter_upwards [measure_eq_zero_iff_ae_notMem.1 hz] with t ht _
      exact Real.norm_of_nonneg (h.nonneg t ht)
    rw [e, intervalIntegral.integral_of_le hy, (h.integral_Ioc _ hy rfl).2]
    linarith [(h.range x).2, (h.range y).1]

theorem integral_Iic (h : CdfData D F f G B) (x : ℝ) : ∫ t in Iic x, f t = F x := by
  have h1 := intervalIntegral_tendsto_integral_Iic (a := fun y : ℝ => y) x (h.integrable_Iic x) tendsto_id
  have h2 : Tendsto (fun y => ∫ t in y..x, f t) atBot (𝓝 (F x - 0)) := by
    refine (tendsto_const_nhds.sub h.tendsto_bot).congr' ?_
    filter_upwards [eventually_le_atBot x] with y hy
    rw [intervalIntegral.integral_of_le hy, (h.integral_Ioc _ hy rfl).2]
  rw [tendsto_nhds_unique h1 h2, sub_zero]

theorem hasDensity (h : CdfData D F f G B) : Spec.HasDensity D B :=
  ⟨F, f, h.cdf, h.pdf, h.nonneg, h.deriv, h.integrable_Iic, h.integral_Iic⟩

theorem isCdf (h : CdfData D F f G B) (h0 : D.cdf ninf = 0) (h1 : D.cdf pinf = 1) : Spec.IsCdf D :=
  ⟨F, h.cdf, h.monotone, h.range, h.below, h.above, h.tendsto_bot, h.tendsto_top, h0, h1⟩

/-- Samples that are the inverse distribution function at the deviate, up to the ends of the interval. -/
theorem sampled (h : CdfData D F f G B) (hI : D.deviate ⊆ Icc 0 1) (hI' : Ioo 0 1 ⊆ D.deviate)
    (hd : ∀ u, 0 < u → u < 1 → D.draw (fin u) = fin (G u))
    (he : ∀ u ∈ D.deviate, u = 0 ∨ u = 1 → ∃ y : ℝ, D.draw (fin u) = fin y ∧ D.min ≤ fin y ∧ fin y ≤ D.max) : Spec.Sampled D := by
  constructor
  · intro u hu
    rcases eq_or_lt_of_le (hI hu).1 with h0 | h0
    · exact he u hu (Or.inl h0.symm)
    rcases eq_or_lt_of_le (hI hu).2 with h1 | h1
    · exact he u hu (Or.inr h1)
    have hr := h.right u h0 h1
    have hi := h.inside (x := G u) (by rwa [hr]) (by rwa [hr])
    refine ⟨G u, hd u h0 h1, ?_, ?_⟩
    · rcases h.lower with e | ⟨a, e⟩ <;> rw [e] at hi ⊢
      · trivial
      · exact le_of_lt (α := ℝ) hi.1
    · rcases h.upper with e | ⟨a, e⟩ <;> rw [e] at hi ⊢
      · trivial
      · exact le_of_lt (α := ℝ) hi.2
  · intro x
    refine ⟨F x, h.cdf x, (h.range x).1, ?_⟩
    have key : ∀ u, 0 < u → u < 1 → (u < F x → G u ≤ x) ∧ (G u ≤ x → u ≤ F x) := by
      intro u h0 h1
      have hr := h.right u h0 h1
      constructor
      · intro hu
        by_contra hc
        have := h.monotone (le_of_lt (not_le.1 hc))
        rw [hr] at this; linarith
      · intro hu
        have := h.monotone hu
        rwa [hr] at this
    have hsub1 : Ioo 0 (F x) ⊆ {u : ℝ | u ∈ D.deviate ∧ D.draw (fin u) ≤ fin x} := by
      intro u hu
      have hu1 : u < 1 := lt_of_lt_of_le hu.2 (h.range x).2
      refine ⟨hI' ⟨hu.1, hu1⟩, ?_⟩
      rw [hd u hu.1 hu1, fin_le]
      exact (key u hu.1 hu1).1 hu.2
    have hsub2 : {u : ℝ | u ∈ D.deviate ∧ D.draw (fin u) ≤ fin x} ⊆ Icc 0 (F x) ∪ {1} := by
      rintro u ⟨hu, hx⟩
      rcases eq_or_lt_of_le (hI hu).1 with h0 | h0
      · left; rw [← h0]; exact ⟨le_refl _, (h.range x).1⟩
      rcases eq_or_lt_of_le (hI hu).2 with h1 | h1
      · right; exact h1
      left
      rw [hd u h0 h1, fin_le] at hx
      exact ⟨h0.le, (key u h0 h1).2 hx⟩
    refine le_antisymm ((measure_mono hsub2).trans ((measure_union_le _ _).trans_eq ?_)) (le_trans (le_of_eq ?_) (measure_mono hsub1))
    · rw [Real.volume_Icc, sub_zero, Real.volume_singleton, add_zero]
    · rw [Real.volume_Ioo, sub_zero]

/-- Samples that are the inverse distribution function at 1 minus the deviate. -/
theorem sampled' (h : CdfData D F f G B) (hI : D.deviate ⊆ Icc 0 1) (hI' : Ioo 0 1 ⊆ D.deviate)
    (hd : ∀ u, 0 < u → u < 1 → D.draw (fin u) = fin (G (1 - u)))
    (he : ∀ u ∈ D.deviate, u = 0 ∨ u = 1 → ∃ y : ℝ, D.draw (fin u) = fin y ∧ D.min ≤ fin y ∧ fin y ≤ D.max) : Spec.Sampled D := by
  constructor
  · intro u hu
    rcases eq_or_lt_of_le (hI hu).1 with h0 | h0
    · exact he u hu (Or.inl h0.symm)
    rcases eq_or_lt_of_le (hI hu).2 with h1 | h1
    · exact he u hu (Or.inr h1)
    have hr := h.right (1 - u) (by linarith) (by linarith)
    have hi := h.inside (x := G (1 - u)) (by rw [hr]; linarith) (by rw [hr]; linarith)
    refine ⟨G (1 - u), hd u h0 h1, ?_, ?_⟩
    · rcases h.lower with e | ⟨a, e⟩ <;> rw [e] at hi ⊢
      · trivial
      · exact le_of_lt (α := ℝ) hi.1
    · rcases h.upper with e | ⟨a, e⟩ <;> rw [e] at hi ⊢
      · trivial
      · exact le_of_lt (α := ℝ) hi.2
  · intro x
    refine ⟨F x, h.cdf x, (h.range x).1, ?_⟩
    have key : ∀ u, 0 < u → u < 1 → (1 - F x < u → G (1 - u) ≤ x) ∧ (G (1 - u) ≤ x → 1 - F x ≤ u) := by
      intro u h0 h1
      have hr := h.right (1 - u) (by linarith) (by linarith)
      constructor
      · intro hu
        by_contra hc
        have := h.monotone (le_of_lt (not_le.1 hc))
        rw [hr] at this; linarith
      · intro hu
        have := h.monotone hu
        rw [hr] at this; linarith
    have hsub1 : Ioo (1 - F x) 1 ⊆ {u : ℝ | u ∈ D.deviate ∧ D.draw (fin u) ≤ fin x} := by
      intro u hu
      have hu0 : 0 < u := lt_of_le_of_lt (by linarith [(h.range x).2]) hu.1
      refine ⟨hI' ⟨hu0, hu.2⟩, ?_⟩
      rw [hd u hu0 hu.2, fin_le]
      exact (key u hu0 hu.2).1 hu.1
    have hsub2 : {u : ℝ | u ∈ D.deviate ∧ D.draw (fin u) ≤ fin x} ⊆ Icc (1 - F x) 1 ∪ {0} := by
      rintro u ⟨hu, hx⟩
      rcases eq_or_lt_of_le (hI hu).1 with h0 | h0
      · right; exact h0.symm
      rcases eq_or_lt_of_le (hI hu).2 with h1 | h1
      · left; rw [h1]; exact ⟨by linarith [(h.range x).1], le_refl _⟩
      left
      rw [hd u h0 h1, fin_le] at hx
      exact ⟨(key u h0 h1).2 hx, h1.le⟩
    refine le_antisymm ((measure_mono hsub2).trans ((measure_union_le _ _).trans_eq ?_)) (le_trans (le_of_eq ?_) (measure_mono hsub1))
    · rw [Real.volume_Icc, Real.volume_singleton, add_zero]; congr 1; ring
    · rw [Real.volume_Ioo]; congr 1; ring

end CdfData

/-- A function made of two pieces that meet with the same slope. -/
theorem hasDerivAt_pieces {F g h : ℝ → ℝ} {a d : ℝ} (hg : HasDerivAt g d a) (hh : HasDerivAt h d a)
    (h1 : ∀ x ≤ a, F x = g x) (h2 : ∀ x ≥ a, F x = h x) : HasDerivAt F d a := by
  have l : HasDerivWithinAt F d (Iic a) a := hg.hasDerivWithinAt.congr h1 (h1 a le_rfl)
  have r : HasDerivWithinAt F d (Ici a) a := hh.hasDerivWithinAt.congr h2 (h2 a le_rfl)
  have := l.union r
  rwa [Iic_union_Ici, hasDerivWithinAt_univ] at this

/-- A function that is given by a formula near the point. -/
theorem hasDerivAt_right {F g : ℝ → ℝ} {a x d : ℝ} (hx : a < x) (hg : HasDerivAt g d x) (h : ∀ y, a < y → F y = g y) : HasDerivAt F d x :=
  hg.congr_of_eventuallyEq (by filter_upwards [Ioi_mem_nhds hx] with y hy using h y hy)
theorem hasDerivAt_left {F g : ℝ → ℝ} {a x d : ℝ} (hx : x < a) (hg : HasDerivAt g d x) (h : ∀ y, y < a → F y = g y) : HasDerivAt F d x :=
  hg.congr_of_eventuallyEq (by filter_upwards [Iio_mem_nhds hx] with y hy using h y hy)
theorem hasDerivAt_between {F g : ℝ → ℝ} {a b x d : ℝ} (h1 : a < x) (h2 : x < b) (hg : HasDerivAt g d x)
    (h : ∀ y, a < y → y < b → F y = g y) : HasDerivAt F d x :=
  hg.congr_of_eventuallyEq (by filter_upwards [Ioo_mem_nhds h1 h2] with y hy using h y hy.1 hy.2)

end Trng
