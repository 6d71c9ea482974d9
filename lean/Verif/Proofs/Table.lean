import Verif.Model.DiscreteLaws
import Verif.Props.Discrete
import Verif.Spec.Law

/-! Sampling from a table of cumulative probabilities. -/
namespace Trng
open Discrete XR MeasureTheory

theorem searchLoop_fin (x : ℝ) (t : List ℝ) (fuel : ℕ) : ∀ i1 i2, searchLoop (fin x) (t.map fin) fuel i1 i2 = searchLoop x t fuel i1 i2 := by
  induction fuel with
  | zero => intro i1 i2; rfl
  | succ f ih =>
    intro i1 i2
    rw [searchLoop, searchLoop]
    by_cases h : i2 - i1 > 1
    · rw [if_pos h, if_pos h, List.getElem?_map]
      cases t[(i2 + i1) / 2]? with
      | none => rfl
      | some v =>
        simp only [Option.map_some, Option.bind_some, fin_le]
        by_cases hv : x ≤ v
        · rw [if_pos hv, if_pos hv, ih]
        · rw [if_neg hv, if_neg hv, ih]
    · rw [if_neg h, if_neg h]

theorem search_fin (x : ℝ) (t : List ℝ) : search (fin x) (t.map fin) = search x t := by
  rw [search, search, List.getElem?_map]
  cases t[0]? with
  | none => rfl
  | some v =>
    simp only [Option.map_some, Option.bind_some, fin_lt]
    by_cases hv : x < v
    · rw [if_pos hv, if_pos hv]
    · rw [if_neg hv, if_neg hv, List.length_map, searchLoop_fin]

/-- A set between the open and the closed interval has the length of the interval. -/
theorem volume_between {S : Set ℝ} {a b : ℝ} (h1 : Set.Ioo a b ⊆ S) (h2 : S ⊆ Set.Icc a b) :
    volume S = ENNReal.ofReal (b - a) :=
  le_antisymm ((measure_mono h2).trans_eq Real.volume_Icc) (Real.volume_Ioo.symm.trans_le (measure_mono h1))

/-- The probability of index `k` in a cumulative table. -/
noncomputable def tableProb (t : List ℝ) (k : ℕ) : ℝ := if k < t.length then (if k = 0 then t.getD 0 0 else t.getD k 0 - t.getD (k - 1) 0) else 0

/-- Where the search ends up. -/
theorem search_bounds {t : List ℝ} (ht : t ≠ [])
    (hl : t.getD (t.length - 1) 0 = 1) {u : ℝ} (h1 : u < 1) :
    ∃ k, search u t = some k ∧ k < t.length ∧ u ≤ t.getD k 0 ∧ (k ≠ 0 → t.getD (k - 1) 0 ≤ u) ∧
      (2 ≤ k → t.getD (k - 1) 0 < u) ∧ (k = 0 → u < t.getD 0 0) := by
  have hpos : 0 < t.length := List.length_pos_iff.2 ht
  obtain ⟨a, b, c⟩ := C51_search u t ht
  by_cases hu : u < t.getD 0 0
  · exact ⟨0, a hu, hpos, hu.le, fun h => absurd rfl h, fun h => by omega, fun _ => hu⟩
  · rw [not_lt] at hu
    rcases Nat.lt_or_ge 1 t.length with h2 | h2
    · obtain ⟨i, hi, hi1, hil, hlow, hup⟩ := c hu h2
      refine ⟨i, hi, hil, ?_, fun _ => ?_, fun h => ?_, fun h => by omega⟩
      · rcases hup with h | h
        · rw [h, hl]; exact h1.le
        · exact h
      · rcases hlow with h | h
        · rw [h]; exact hu
        · exact h.le
      · rcases hlow with h' | h'
        · omega
        · exact h'
    · have e : t.length = 1 := by omega
      rw [e] at hl
      exact absurd hu (not_le.2 (by rw [show (0 : ℕ) = 1 - 1 from rfl, hl]; exact h1))

theorem table_prob {t : List ℝ} (ht : t ≠ []) (h0 : 0 ≤ t.getD 0 0)
    (hs : ∀ i j, i ≤ j → j < t.length → t.getD i 0 ≤ t.getD j 0) (hl : t.getD (t.length - 1) 0 = 1) (k : ℕ) :
    volume {u : ℝ | 0 ≤ u ∧ u < 1 ∧ search u t = some k} = ENNReal.ofReal (tableProb t k) := by
  have hpos : 0 < t.length := List.length_pos_iff.2 ht
  by_cases hk : k < t.length
  · have key : ∀ u, 0 ≤ u → u < 1 → ∀ j, search u t = some j → j ≠ k → (u < t.getD k 0 → (k = 0 ∨ t.getD (k - 1) 0 < u) → False) := by
      intro u hu0 hu1 j hj hne huk hk2
      obtain ⟨i, hi, hil, hup, hlow, -⟩ := search_bounds ht hl hu1
      have : i = j := Option.some.inj (hi.symm.trans hj)
      subst this
      rcases Nat.lt_or_gt_of_ne hne with h | h
      · rcases hk2 with h' | h'
        · omega
        · exact absurd (hs i (k - 1) (by omega) (by omega)) (not_le.2 (lt_of_lt_of_le h' hup))
      · exact absurd (hs k (i - 1) (by omega) (by omega)) (not_le.2 (lt_of_le_of_lt (hlow (by omega)) huk))
    have h1k : t.getD k 0 ≤ 1 := hl ▸ hs k _ (by omega) (by omega)
    rw [tableProb, if_pos hk]
    by_cases hk0 : k = 0
    · subst hk0
      rw [if_pos rfl, show t.getD 0 0 = t.getD 0 0 - 0 from (sub_zero _).symm]
      refine volume_between (fun u hu => ?_) (fun u hu => ?_)
      · obtain ⟨i, hi, -⟩ := search_bounds ht hl (lt_of_lt_of_le (by simpa using hu.2) h1k)
        refine ⟨hu.1.le, lt_of_lt_of_le (by simpa using hu.2) h1k, ?_⟩
        rw [hi]
        by_contra hne
        exact key u hu.1.le (lt_of_lt_of_le (by simpa using hu.2) h1k) i hi (fun h => hne (by rw [h])) (by simpa using hu.2) (Or.inl rfl)
      · obtain ⟨hu0, hu1, hu⟩ := hu
        obtain ⟨i, hi, hil, hup, -⟩ := search_bounds ht hl hu1
        have : i = 0 := Option.some.inj (hi.symm.trans hu)
        subst this
        exact ⟨hu0, by simpa using hup⟩
    · rw [if_neg hk0]
      have hp0 : 0 ≤ t.getD (k - 1) 0 := h0.trans (hs 0 _ (by omega) (by omega))
      refine volume_between (fun u hu => ?_) (fun u hu => ?_)
      · have hu0 : 0 ≤ u := hp0.trans hu.1.le
        have hu1 : u < 1 := lt_of_lt_of_le hu.2 h1k
        obtain ⟨i, hi, -⟩ := search_bounds ht hl hu1
        refine ⟨hu0, hu1, ?_⟩
        rw [hi]
        by_contra hne
        exact key u hu0 hu1 i hi (fun h => hne (by rw [h])) hu.2 (Or.inr hu.1)
      · obtain ⟨hu0, hu1, hu⟩ := hu
        obtain ⟨i, hi, hil, hup, hlow, -⟩ := search_bounds ht hl hu1
        have : i = k := Option.some.inj (hi.symm.trans hu)
        subst this
        exact ⟨hlow hk0, hup⟩
  · rw [tableProb, if_neg hk, ENNReal.ofReal_zero]
    convert measure_empty (μ := (volume : Measure ℝ))
    ext u
    simp only [Set.mem_ofPred_eq, Set.mem_empty_iff_false, iff_false]
    rintro ⟨hu0, hu1, hu⟩
    obtain ⟨i, hi, hil, -⟩ := search_bounds ht hl hu1
    have : i = k := Option.some.inj (hi.symm.trans hu)
    omega

/-! ### Cumulative tables of weights -/

/-- Partial sums. -/
def partialSums (w : ℕ → ℝ) (N : ℕ) : List ℝ := (List.range N).map fun k => (Finset.range (k + 1)).sum w

theorem cumulateFrom_fin (w : ℕ → ℝ) : ∀ (N s : ℕ), cumulateFrom (fin ((Finset.range s).sum w)) ((List.range' s N).map fun i => fin (w i)) =
    (List.range' s N).map fun k => fin ((Finset.range (k + 1)).sum w) := by
  intro N
  induction N with
  | zero => intro s; rfl
  | succ n ih =>
    intro s
    rw [List.range'_succ, List.map_cons, List.map_cons, cumulateFrom, fin_add, add_comm (w s), ← Finset.sum_range_succ, ih]

theorem cumulate_fin (w : ℕ → ℝ) (N : ℕ) : cumulate ((List.range N).map fun i => fin (w i)) = (partialSums w N).map fin := by
  rw [partialSums, List.map_map, List.range_eq_range']
  cases N with
  | zero => rfl
  | succ n =>
    rw [List.range'_succ, List.map_cons, List.map_cons, cumulate]
    have := cumulateFrom_fin w n 1
    rw [Finset.sum_range_one] at this
    rw [zero_add, this]
    simp

theorem normalize_fin (l : List ℝ) (b : ℝ) (hb : b ≠ 0) (hl : l.getLast? = some b) :
    normalize (l.map fin) = (l.map (· / b)).map fin := by
  rw [normalize, List.getLast?_map, hl]
  simp [fin_div hb]

theorem partialSums_length (w : ℕ → ℝ) (N : ℕ) : (partialSums w N).length = N := by simp [partialSums]

/-- The normalized cumulative table of weights. -/
noncomputable def cdfTable (w : ℕ → ℝ) (N : ℕ) : List ℝ := (partialSums w N).map (· / (Finset.range N).sum w)

theorem cdfTable_length (w : ℕ → ℝ) (N : ℕ) : (cdfTable w N).length = N := by simp [cdfTable, partialSums]

theorem cdfTable_getElem? (w : ℕ → ℝ) {N k : ℕ} (hk : k < N) :
    (cdfTable w N)[k]? = some ((Finset.range (k + 1)).sum w / (Finset.range N).sum w) := by
  simp [cdfTable, partialSums, hk]

theorem cdfTable_getD (w : ℕ → ℝ) {N k : ℕ} (hk : k < N) :
    (cdfTable w N).getD k 0 = (Finset.range (k + 1)).sum w / (Finset.range N).sum w := by
  rw [List.getD_eq_getElem?_getD, cdfTable_getElem? w hk, Option.getD_some]

theorem table_construct (w : ℕ → ℝ) {N : ℕ} (hN : 0 < N) (hs : (Finset.range N).sum w ≠ 0) :
    normalize (cumulate ((List.range N).map fun i => fin (w i))) = (cdfTable w N).map fin := by
  rw [cumulate_fin, normalize_fin _ _ hs, cdfTable]
  rw [partialSums, List.getLast?_map, List.getLast?_range, if_neg (by omega)]
  simp only [Option.map_some]
  rw [show N - 1 + 1 = N by omega]

section
variable {w : ℕ → ℝ} {N : ℕ} (hw : ∀ i, i < N → 0 ≤ w i) (hs : 0 < (Finset.range N).sum w)
include hw hs

theorem cdfTable_facts : cdfTable w N ≠ [] ∧ 0 ≤ (cdfTable w N).getD 0 0 ∧
    (∀ i j, i ≤ j → j < (cdfTable w N).length → (cdfTable w N).getD i 0 ≤ (cdfTable w N).getD j 0) ∧
    (cdfTable w N).getD ((cdfTable w N).length - 1) 0 = 1 := by
  have hN : 0 < N := by
    rcases Nat.eq_zero_or_pos N with h | h
    · rw [h] at hs; simp at hs
    · exact h
  have hl := cdfTable_length w N
  refine ⟨fun h => by rw [h] at hl; simp at hl; omega, ?_, fun i j hij hj => ?_, ?_⟩
  · rw [cdfTable_getD w hN]
    exact div_nonneg (by rw [zero_add, Finset.sum_range_one]; exact hw 0 hN) hs.le
  · rw [hl] at hj
    rw [cdfTable_getD w hj, cdfTable_getD w (lt_of_le_of_lt hij hj)]
    refine div_le_div_of_nonneg_right (Finset.sum_le_sum_of_subset_of_nonneg ?_ fun x hx _ => hw x ?_) hs.le
    · intro x hx
      rw [Finset.mem_range] at *
      omega
    · rw [Finset.mem_range] at hx; omega
  · rw [hl, cdfTable_getD w (by omega), show N - 1 + 1 = N by omega, div_self hs.ne']

/-- Sampling from the normalized cumulative table of weights. -/
theorem cdfTable_prob (k : ℕ) : volume {u : ℝ | 0 ≤ u ∧ u < 1 ∧ search (fin u) ((cdfTable w N).map fin) = some k} =
    ENNReal.ofReal (if k < N then w k / (Finset.range N).sum w else 0) := by
  obtain ⟨a, b, c, d⟩ := cdfTable_facts hw hs
  simp only [search_fin]
  rw [table_prob a b c d, tableProb, cdfTable_length]
  by_cases hk : k < N
  · rw [if_pos hk, if_pos hk]
    by_cases h0 : k = 0
    · subst h0
      rw [if_pos rfl, cdfTable_getD w hk, zero_add, Finset.sum_range_one]
    · rw [if_neg h0, cdfTable_getD w hk, cdfTable_getD w (by omega), Finset.sum_range_succ, show k - 1 + 1 = k by omega, add_div, add_sub_cancel_left]
  · rw [if_neg hk, if_neg hk]

theorem cdfTable_defined {u : ℝ} (h1 : u < 1) : ∃ k, search (fin u) ((cdfTable w N).map fin) = some k ∧ k < N := by
  obtain ⟨a, b, c, d⟩ := cdfTable_facts hw hs
  obtain ⟨k, hk, hl, -⟩ := search_bounds a d h1
  exact ⟨k, by rw [search_fin]; exact hk, by rwa [cdfTable_length] at hl⟩
end

end Trng
