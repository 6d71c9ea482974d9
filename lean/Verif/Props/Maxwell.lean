import Verif.Props.Normal
import Verif.Proofs.Maxwell

/-! C73 for maxwell_dist: its Newton iteration inverts the distribution function, and so the samples have the distribution. -/
namespace Trng
open XR Set MeasureTheory
open Classical

theorem maxwell_start_pos {theta : ℝ} (ht : 0 < theta) (n : Nat) : 0 < theta * (Maxwell.y0 / 3 ^ n) := by
  have : 0 < Maxwell.y0 := by linarith [Maxwell.y0_bounds.1]
  positivity

/-- maxwell_dist: icdf and the samples are exact up to the larger of twice the machine epsilon, at which the iteration stops,
and two to the power of minus the number of its steps; the samples are positive. -/
theorem C73_maxwell (digits : Nat) {theta eps : ℝ} (ht : 0 < theta) (he : 0 ≤ eps) :
    Spec.InverseWithin (maxwellDist digits (fin eps) (fin theta)) (max ((2 : ℝ)⁻¹ ^ (digits + 2)) (2 * eps)) {x | 0 ≤ x} ∧
    ∀ u ∈ (maxwellDist digits (fin eps) (fin theta)).deviate, 0 < (maxwellDist digits (fin eps) (fin theta)).draw (fin u) := by
  have h : ∀ u : ℝ, 0 < u → u < 1 → _ := fun u h0 h1 => Maxwell.icdf_bound (u := u) digits ht he h0 h1
  choose! g hg hi hd using h
  have hd0 : (0 : ℝ) ≤ max ((2 : ℝ)⁻¹ ^ (digits + 2)) (2 * eps) := le_max_of_le_left (by positivity)
  have hpos : ∀ u, 0 < u → u < 1 → 0 < g u := fun u h0 h1 => (maxwell_start_pos ht _).trans_le (hg u h0 h1)
  have hq : ∀ u, 0 < u → u < 1 → |(fun x => if x ≤ 0 then 0 else maxwellF theta x) (g u) - u| ≤ max ((2 : ℝ)⁻¹ ^ (digits + 2)) (2 * eps) := by
    intro u h0 h1
    simp only [if_neg (not_le.2 (hpos u h0 h1))]
    exact hd u h0 h1
  refine ⟨⟨fun u h0 h1 => ⟨g u, _, hi u h0 h1, maxwell_cdf ht _, hd u h0 h1⟩, fun u hu => ⟨_, hi u hu.1 hu.2⟩,
    fun x hx => ⟨_, maxwell_cdf ht x, ?_⟩⟩, fun u hu => ?_⟩
  · have hx0 : (if x ≤ 0 then 0 else maxwellF theta x) = maxwellF theta x := by
      split_ifs with c
      · rw [le_antisymm c hx, maxwellF_zero]
      · rfl
    have h := sampled_within (maxwell_data ht).monotone hd0 hq (x := x) ((maxwell_data ht).range x).2
    rw [hx0] at h
    have e : {u : ℝ | u ∈ (maxwellDist digits (fin eps) (fin theta)).deviate ∧ (maxwellDist digits (fin eps) (fin theta)).draw (fin u) ≤ fin x}
        = {u : ℝ | u ∈ Ioo (0 : ℝ) 1 ∧ g u ≤ x} := by
      ext u
      refine and_congr_right fun hu => ?_
      rw [show (maxwellDist digits (fin eps) (fin theta)).draw (fin u) = _ from hi u hu.1 hu.2, fin_le]
    rw [e]; exact h
  · rw [show (maxwellDist digits (fin eps) (fin theta)).draw (fin u) = _ from hi u hu.1 hu.2, ofNat_fin, fin_lt]
    simpa using hpos u hu.1 hu.2

/-- The error is not small compared with a small argument: `cdf(icdf(u))` stays above a positive bound however small `u` is,
because the iteration gives up after a fixed number of steps. -/
theorem C73_maxwell_relative_wrong (digits : Nat) {theta eps : ℝ} (ht : 0 < theta) (he : 0 ≤ eps) :
    ∃ L : ℝ, 0 < L ∧ ∀ u : ℝ, 0 < u → u < 1 → ∃ y q : ℝ, (maxwellDist digits (fin eps) (fin theta)).icdf (fin u) = fin y ∧
      (maxwellDist digits (fin eps) (fin theta)).cdf (fin y) = fin q ∧ L ≤ q := by
  have hp := maxwell_start_pos ht (digits + 2)
  refine ⟨_, maxwellF_pos ht hp, fun u h0 h1 => ?_⟩
  obtain ⟨y, a, b, -⟩ := Maxwell.icdf_bound digits ht he h0 h1
  exact ⟨y, _, b, maxwell_cdf ht _, (maxwellF_strictMonoOn ht).monotoneOn (mem_Ici.2 hp.le) (mem_Ici.2 (hp.le.trans a)) a⟩

/-- `double`: 53 digits and the machine epsilon 2^-52. -/
example : Spec.InverseWithin (maxwellDist 53 (fin ((2 : ℝ)⁻¹ ^ 52)) (fin 3)) ((2 : ℝ)⁻¹ ^ 51) {x | 0 ≤ x} := by
  have h := (C73_maxwell 53 (theta := 3) (eps := (2 : ℝ)⁻¹ ^ 52) (by norm_num) (by positivity)).1
  have e : max ((2 : ℝ)⁻¹ ^ (53 + 2)) (2 * (2 : ℝ)⁻¹ ^ 52) = (2 : ℝ)⁻¹ ^ 51 := by
    rw [max_eq_right] <;> norm_num
  rwa [e] at h

end Trng
