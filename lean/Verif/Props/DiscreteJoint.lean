import Verif.Props.DiscreteRounded
import Verif.Props.HalfPeriod

/-! Property C108, several samples of discrete_dist: they are independent over a period. -/
namespace Trng.Props
open Spec PeriodLaw Trng.Uniform FP Trng.Discrete Independence Streams

variable {σ : Type} {G : Gen σ} {e : σ} {T n : ℕ} {es : Fin n → σ} {η : ℝ}

/-- What the joint laws are made of. -/
theorem discrete_one (hG : G.Sound) (w : List ℚ) (hw : ∀ x ∈ w, 0 ≤ x) (hs : 0 < w.sum) (hl : w.length ≤ 2 ^ 30) :
    ∃ D, WTree.construct float64.rnd w = some D ∧ OneCall (fun (τ : Type) (G : Gen τ) => D.sample float64 G) ∧
      ∀ j < w.length, (0 ≤ ((w.getD j 0 / w.sum : ℚ) : ℝ) ∧ ((w.getD j 0 / w.sum : ℚ) : ℝ) ≤ 1) ∧
        |(((Finset.range (G.max - G.min + 1)).filter fun k => nth (D.sample float64 (counter G.min G.max)) 0 k = some (j : ℤ)).card : ℝ) / (G.max - G.min + 1 : ℕ) -
          ((w.getD j 0 / w.sum : ℚ) : ℝ)| ≤ 2 * (2e-13 + 13 / (G.max - G.min : ℝ) + 1 / ((G.max - G.min + 1 : ℕ) : ℝ)) := by
  have hne : w ≠ [] := by rintro rfl; simp at hs
  have hpos : 0 < w.length := List.length_pos_iff.2 hne
  obtain ⟨D, hD, -, h2, -⟩ := C108_law (counter_sound hG) counter_equi w hw hs hl
  obtain ⟨D', hD', hN, -⟩ := construct_tree float64.rnd w hne
  obtain rfl : D = D' := Option.some.inj (hD.symm.trans hD')
  refine ⟨D, hD, ?_, fun j hj => ⟨⟨?_, ?_⟩, ?_⟩⟩
  · have : (fun (τ : Type) (G : Gen τ) => D.sample float64 G) =
        fun τ (G : Gen τ) s => (D.draw float64.rnd (uniformco float64 G s).1, (uniformco float64 G s).2) := by
      funext τ G s
      rw [WTree.sample, if_neg (by omega)]
    rw [this]
    exact one_co _
  · have : 0 ≤ w.getD j 0 / w.sum := by
      rw [List.getD_eq_getElem _ _ hj]; exact div_nonneg (hw _ (List.getElem_mem hj)) hs.le
    exact_mod_cast this
  · have : w.getD j 0 / w.sum ≤ 1 := by
      rw [div_le_one hs, List.getD_eq_getElem _ _ hj]
      exact List.single_le_sum hw _ (List.getElem_mem hj)
    exact_mod_cast this
  · have := h2 j hj
    convert this <;> rfl

theorem joint_bound (hG : G.Sound) : (n : ℝ) * (2 * (2e-13 + 13 / (G.max - G.min : ℝ) + 1 / ((G.max - G.min + 1 : ℕ) : ℝ))) + η ≤
    n * (4e-13 + 28 / (G.max - G.min : ℝ)) + η := by
  have h := bound_le (d := n) (T := 1) hG (ε := 2e-13)
  have e : (n : ℝ) * (4e-13 + 28 / (G.max - G.min : ℝ)) = 2 * (n * (2e-13 + 14 / (G.max - G.min : ℝ))) := by ring
  rw [e]
  linarith

open Classical in
/-- C108: n successive samples are independent: the fraction of positions at which given indices follow each other is the product of the
relative weights. -/
theorem C108_successive (hG : G.Sound) (hT : TuplesEquidistributed G e T n) (w : List ℚ) (hw : ∀ x ∈ w, 0 ≤ x) (hs : 0 < w.sum)
    (hl : w.length ≤ 2 ^ 30) : ∃ D, WTree.construct float64.rnd w = some D ∧ ∀ v : Fin n → ℕ, (∀ i, v i < w.length) →
      |(((Finset.range T).filter fun k => ∀ i : Fin n, nth (D.sample float64 G) e (k + i.val) = some (v i : ℤ)).card : ℝ) / T -
        ∏ i, ((w.getD (v i) 0 / w.sum : ℚ) : ℝ)| ≤ n * (4e-13 + 28 / (G.max - G.min : ℝ)) + 1 / T := by
  obtain ⟨D, hD, hS, h⟩ := discrete_one hG w hw hs hl
  refine ⟨D, hD, fun v hv => ?_⟩
  simp only [← oneCall_after hS hG]
  have key := joint_general hS hG (tuples_streams.1 hT) (fun i x => x = some (v i : ℤ)) (fun i => ((w.getD (v i) 0 / w.sum : ℚ) : ℝ))
    (fun i => (h _ (hv i)).1) (δ := 2 * (2e-13 + 13 / (G.max - G.min : ℝ) + 1 / ((G.max - G.min + 1 : ℕ) : ℝ))) fun i => by convert (h _ (hv i)).2
  refine le_trans (le_of_eq ?_) (le_trans key (joint_bound hG))
  congr!

open Classical in
/-- C108: samples that n engines with independent streams return in the same call are independent. -/
theorem C108_streams (hG : G.Sound) (hT : StreamsEquidistributed G es T) (w : List ℚ) (hw : ∀ x ∈ w, 0 ≤ x) (hs : 0 < w.sum)
    (hl : w.length ≤ 2 ^ 30) : ∃ D, WTree.construct float64.rnd w = some D ∧ ∀ v : Fin n → ℕ, (∀ i, v i < w.length) →
      |(((Finset.range T).filter fun k => ∀ i : Fin n, nth (D.sample float64 G) (es i) k = some (v i : ℤ)).card : ℝ) / T -
        ∏ i, ((w.getD (v i) 0 / w.sum : ℚ) : ℝ)| ≤ n * (4e-13 + 28 / (G.max - G.min : ℝ)) + 1 / T := by
  obtain ⟨D, hD, hS, h⟩ := discrete_one hG w hw hs hl
  refine ⟨D, hD, fun v hv => ?_⟩
  have key := joint_general hS hG hT (fun i x => x = some (v i : ℤ)) (fun i => ((w.getD (v i) 0 / w.sum : ℚ) : ℝ))
    (fun i => (h _ (hv i)).1) (δ := 2 * (2e-13 + 13 / (G.max - G.min : ℝ) + 1 / ((G.max - G.min + 1 : ℕ) : ℝ))) fun i => by convert (h _ (hv i)).2
  refine le_trans (le_of_eq ?_) (le_trans key (joint_bound hG))
  congr!

open Classical in
/-- C108: the same with the engines of C106, whose numbers are only nearly equally frequent. -/
theorem C108_nearly (hG : G.Sound) (hT : StreamsNearly G es T η) (w : List ℚ) (hw : ∀ x ∈ w, 0 ≤ x) (hs : 0 < w.sum)
    (hl : w.length ≤ 2 ^ 30) : ∃ D, WTree.construct float64.rnd w = some D ∧ ∀ v : Fin n → ℕ, (∀ i, v i < w.length) →
      |(((Finset.range T).filter fun k => ∀ i : Fin n, nth (D.sample float64 G) (es i) k = some (v i : ℤ)).card : ℝ) / T -
        ∏ i, ((w.getD (v i) 0 / w.sum : ℚ) : ℝ)| ≤ n * (4e-13 + 28 / (G.max - G.min : ℝ)) + η := by
  obtain ⟨D, hD, hS, h⟩ := discrete_one hG w hw hs hl
  refine ⟨D, hD, fun v hv => ?_⟩
  have key := HalfPeriod.nearly_general hS hG hT (fun i x => x = some (v i : ℤ)) (fun i => ((w.getD (v i) 0 / w.sum : ℚ) : ℝ))
    (fun i => (h _ (hv i)).1) (δ := 2 * (2e-13 + 13 / (G.max - G.min : ℝ) + 1 / ((G.max - G.min + 1 : ℕ) : ℝ))) fun i => by convert (h _ (hv i)).2
  refine le_trans (le_of_eq ?_) (le_trans key (joint_bound hG))
  congr!

/-- Weights and an engine that meet the hypotheses: three successive samples of the default xoshiro256plus. -/
example : (∀ x ∈ [float64.rnd (1 / 10), float64.rnd (1 / 5), float64.rnd (7 / 10)], 0 ≤ x) ∧
    0 < [float64.rnd (1 / 10), float64.rnd (1 / 5), float64.rnd (7 / 10)].sum ∧ (gen64 Xoshiro.call).Sound ∧
    TuplesEquidistributed (gen64 Xoshiro.call) Xoshiro.default (2 ^ 256 - 1) 3 :=
  ⟨by decide +kernel, by decide +kernel, gen64_sound _, C104_xoshiro Xoshiro.default (by decide) le_rfl⟩

end Trng.Props
