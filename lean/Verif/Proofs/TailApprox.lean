import Verif.Proofs.TailDists
import Verif.Model.DiscreteNumeric

/-! Proofs for the samplers with a table and a loop for the tail, with an approximate distribution function. -/
namespace Trng.TailApprox
open Discrete XR MeasureTheory

/-- The table: `c` approximate values of the distribution function and a final 1. -/
noncomputable def table (G : ℕ → ℝ) (c : ℕ) : List ℝ := ((List.range c).map G) ++ [1]

theorem table_length (G : ℕ → ℝ) (c : ℕ) : (table G c).length = c + 1 := by simp [table]

theorem table_lt (G : ℕ → ℝ) {c k : ℕ} (h : k < c) : (table G c).getD k 0 = G k := by
  rw [List.getD_eq_getElem?_getD, table, List.getElem?_append_left (by simpa using h)]
  simp [h]

theorem table_last (G : ℕ → ℝ) (c : ℕ) : (table G c).getD c 0 = 1 := by
  rw [List.getD_eq_getElem?_getD, table, List.getElem?_append_right (by simp)]
  simp

variable {f G : ℕ → ℝ} {δ : ℝ} {c : ℕ}

/-- What is drawn with the table, for values `G` of the distribution function that are correct up to `δ`. -/
theorem draw_spec (hf : ∀ k, 0 ≤ f k) {pdf : ℤ → XR} (hpdf : ∀ k : ℕ, pdf (k + 1 : ℕ) = fin (f (k + 1))) (hc : c < 2 ^ 31)
    (hG : ∀ k ≤ c, |G k - (Finset.range (k + 1)).sum f| ≤ δ) {u : ℝ} (h1 : u < 1) {r : Option ℤ}
    (hr : r = (search (fin u) ((table G c).map fin)).bind fun x =>
      if x + 1 = ((table G c).map fin).length then tailLoop pdf (2 ^ 31 - x) (fin u - fin (G x)) x else some (x : ℤ)) :
    (∀ k : ℤ, r = some k → ∃ j : ℕ, k = j ∧ j < 2 ^ 31 ∧ u ≤ (Finset.range (j + 1)).sum f + δ ∧ (j ≠ 0 → (Finset.range j).sum f - δ ≤ u)) ∧
    (u ≤ (Finset.range (2 ^ 31)).sum f + (G c - (Finset.range (c + 1)).sum f) → ∃ k, r = some k) := by
  have hne : table G c ≠ [] := fun h => by simpa [h] using table_length G c
  obtain ⟨x, hx, hxl, hup, hlow, -, -⟩ := search_bounds hne (by rw [table_length]; exact table_last G c) h1
  rw [table_length] at hxl
  rw [search_fin, hx, Option.bind_some, List.length_map, table_length] at hr
  have low : ∀ j : ℕ, j = x → j ≠ 0 → (Finset.range j).sum f - δ ≤ u := by
    rintro j rfl hj
    have := hlow hj
    rw [table_lt G (by omega)] at this
    have h := (abs_le.1 (hG (j - 1) (by omega))).1
    rw [show j - 1 + 1 = j by omega] at h
    linarith
  rcases Nat.lt_or_ge x c with h | h
  · rw [if_neg (by omega)] at hr
    rw [table_lt G h] at hup
    refine ⟨fun k hk => ?_, fun _ => ⟨_, hr⟩⟩
    rw [hr] at hk
    refine ⟨x, (Option.some.inj hk).symm, by omega, ?_, low x rfl⟩
    have := (abs_le.1 (hG x h.le)).2
    linarith
  · obtain rfl : x = c := by omega
    obtain ⟨g1, g2⟩ := abs_le.1 (hG x le_rfl)
    rw [if_pos rfl, fin_sub, show u - G x = (u - (G x - (Finset.range (x + 1)).sum f)) - (Finset.range (x + 1)).sum f by ring] at hr
    obtain ⟨a, b⟩ := tailLoop_spec (f := f) hpdf (u - (G x - (Finset.range (x + 1)).sum f)) (2 ^ 31 - 1) (2 ^ 31 - x) x (by omega) (by omega)
    rw [show 2 ^ 31 - 1 + 1 = 2 ^ 31 by norm_num] at a b
    have key : u - (G x - (Finset.range (x + 1)).sum f) ≤ (Finset.range (2 ^ 31)).sum f → ∃ j : ℕ, r = some (j : ℤ) ∧ j < 2 ^ 31 ∧
        u ≤ (Finset.range (j + 1)).sum f + δ ∧ (j ≠ 0 → (Finset.range j).sum f - δ ≤ u) := by
      intro hu
      obtain ⟨k, hk, h2, h3, h4, h5⟩ := b hu
      refine ⟨k, hr.trans hk, by omega, by linarith, fun hk0 => ?_⟩
      rcases Nat.lt_or_ge x k with h' | h'
      · have := h5 h'
        linarith
      · exact low k (by omega) hk0
    refine ⟨fun k hk => ?_, fun hu => ?_⟩
    · rcases lt_or_ge ((Finset.range (2 ^ 31)).sum f) (u - (G x - (Finset.range (x + 1)).sum f)) with hlt | hge
      · have := a ⟨hlt, fun j _ hj => lt_of_le_of_lt (sums_mono hf hj) (by rwa [show 2 ^ 31 - 1 + 1 = 2 ^ 31 by norm_num])⟩
        rw [hr, this] at hk
        exact absurd hk (by simp)
      · obtain ⟨j, hj, h2⟩ := key hge
        rw [hj] at hk
        exact ⟨j, (Option.some.inj hk).symm, h2⟩
    · obtain ⟨j, hj, -⟩ := key (by linarith)
      exact ⟨_, hj⟩

/-- The law of the samples. -/
theorem law (hf : ∀ k, 0 ≤ f k) (hF : ∀ k, (Finset.range k).sum f ≤ 1) {draw : ℝ → Option ℤ} (hδ : 0 ≤ δ)
    (h1 : ∀ u, 0 ≤ u → u < 1 → ∀ k : ℤ, draw u = some k → ∃ j : ℕ, k = j ∧ j < 2 ^ 31 ∧ u ≤ (Finset.range (j + 1)).sum f + δ ∧
      (j ≠ 0 → (Finset.range j).sum f - δ ≤ u))
    (h2 : ∀ u, 0 ≤ u → u < 1 → u ≤ (Finset.range (2 ^ 31)).sum f - δ → ∃ k, draw u = some k) {k : ℕ} (hk : k < 2 ^ 31) :
    ENNReal.ofReal ((Finset.range (k + 1)).sum f - δ) ≤ volume {u : ℝ | 0 ≤ u ∧ u < 1 ∧ ∃ j ≤ (k : ℤ), draw u = some j} ∧
    volume {u : ℝ | 0 ≤ u ∧ u < 1 ∧ ∃ j ≤ (k : ℤ), draw u = some j} ≤ ENNReal.ofReal ((Finset.range (k + 1)).sum f + δ) := by
  have hmono : ∀ {i j : ℕ}, i ≤ j → (Finset.range i).sum f ≤ (Finset.range j).sum f := fun h =>
    Finset.sum_le_sum_of_subset_of_nonneg (fun x hx => by rw [Finset.mem_range] at *; omega) fun x _ _ => hf x
  constructor
  · have : ENNReal.ofReal ((Finset.range (k + 1)).sum f - δ) = volume (Set.Ico 0 ((Finset.range (k + 1)).sum f - δ)) := by
      rw [Real.volume_Ico, sub_zero]
    rw [this]
    refine measure_mono fun u hu => ?_
    have hu1 : u < 1 := by have := hF (k + 1); have := hu.2; linarith
    obtain ⟨j, hj⟩ := h2 u hu.1 hu1 (by have := hmono (show k + 1 ≤ 2 ^ 31 by omega); have := hu.2; linarith)
    refine ⟨hu.1, hu1, j, ?_, hj⟩
    obtain ⟨i, rfl, -, -, hi⟩ := h1 u hu.1 hu1 j hj
    by_contra hlt
    have hki : k + 1 ≤ i := by omega
    have := hi (by omega)
    have := hmono hki
    have := hu.2
    linarith
  · have : ENNReal.ofReal ((Finset.range (k + 1)).sum f + δ) = volume (Set.Icc 0 ((Finset.range (k + 1)).sum f + δ)) := by
      rw [Real.volume_Icc, sub_zero]
    rw [this]
    refine measure_mono fun u hu => ?_
    obtain ⟨h0, hu1, j, hj, e⟩ := hu
    obtain ⟨i, rfl, -, hi, -⟩ := h1 u h0 hu1 j e
    have := hmono (show i + 1 ≤ k + 1 by omega)
    exact ⟨h0, by linarith⟩

/-! ### The tables -/

theorem poisson_tableLoop {GQ : XR → XR → XR} {mu : ℝ} {G : ℕ → ℝ} (hG : ∀ k : ℕ, GQ (ofInt k + 1) (fin mu) = fin (G k)) (hm : 2 * mu ≤ 2 ^ 31 - 1) :
    ∀ fuel x : ℕ, fuel + x = 2 ^ 31 → 1 ≤ fuel → ∃ c, x ≤ c ∧ c < 2 ^ 31 ∧ (x < 7 → 7 ≤ c) ∧ 2 * mu ≤ c ∧ (c = x ∨ c = 7 ∨ (c : ℝ) < 2 * mu + 1) ∧
      PoissonBy.tableLoop GQ (fin mu) fuel x = some (((List.range' x (c - x)).map fun k => fin (G k)) ++ [fin 1]) := by
  intro fuel
  induction fuel with
  | zero => intro x _ h; omega
  | succ n ih =>
    intro x hx _
    rw [PoissonBy.tableLoop]
    by_cases hc : (x : ℤ) < 7 ∨ ofInt x < 2 * fin mu
    · rw [if_pos hc]
      have hn : 1 ≤ n := by
        by_contra hn
        have hx' : x = 2 ^ 31 - 1 := by omega
        rcases hc with hc | hc
        · omega
        · rw [ofNat_fin, fin_mul, ofInt, fin_lt, hx'] at hc
          norm_num at hc
          linarith
      obtain ⟨c, h1, h2, h4, h5, h6, h7⟩ := ih (x + 1) (by omega) hn
      refine ⟨c, by omega, h2, by omega, h5, ?_, ?_⟩
      · rcases h6 with h6 | h6
        · rcases hc with hc | hc
          · by_cases h : x = 6
            · right; left; omega
            · have := h4 (by omega); omega
          · right; right
            rw [ofNat_fin, fin_mul, ofInt, fin_lt] at hc
            rw [h6]; push_cast at hc ⊢; linarith
        · exact Or.inr h6
      · push_cast at h7
        rw [h7, Option.map_some, hG, show c - x = (c - (x + 1)) + 1 by omega, List.range'_succ]
        rfl
    · rw [if_neg hc]
      refine ⟨x, le_rfl, by omega, fun h => absurd (Or.inl (by omega)) hc, ?_, Or.inl rfl, by simp⟩
      push Not at hc
      have := hc.2
      rw [ofNat_fin, fin_mul, ofInt, fin_lt] at this
      push_cast at this
      linarith

theorem poisson_table {GQ : XR → XR → XR} {mu : ℝ} {G : ℕ → ℝ} (hG : ∀ k : ℕ, GQ (ofInt k + 1) (fin mu) = fin (G k)) (hm : 2 * mu ≤ 2 ^ 31 - 1) :
    ∃ c : ℕ, 7 ≤ c ∧ c < 2 ^ 31 ∧ 2 * mu ≤ c ∧ (c = 7 ∨ (c : ℝ) < 2 * mu + 1) ∧ PoissonBy.table GQ (fin mu) = some ((table G c).map fin) := by
  obtain ⟨c, -, h2, h4, h5, h6, h7⟩ := poisson_tableLoop hG hm (2 ^ 31) 0 (by norm_num) (by norm_num)
  have h4 := h4 (by norm_num)
  refine ⟨c, h4, h2, h5, h6.resolve_left (by omega), ?_⟩
  rw [PoissonBy.table]
  have h7' : PoissonBy.tableLoop GQ (fin mu) (2 ^ 31) 0 = _ := h7
  rw [h7', table, List.range_eq_range']
  simp

theorem zt_tableLoop {GQ : XR → XR → XR} {mu : ℝ} {G : ℕ → ℝ}
    (hG : ∀ k : ℕ, 1 ≤ k → (XR.exp (fin mu) * GQ (ofInt k + 1) (fin mu) - 1) / expm1 (fin mu) = fin (G k)) (hm : 2 * mu ≤ 2 ^ 31 - 1) :
    ∀ fuel x : ℕ, fuel + x = 2 ^ 31 → 1 ≤ fuel → 1 ≤ x → ∃ c, x ≤ c ∧ c < 2 ^ 31 ∧ (x < 7 → 7 ≤ c) ∧ 2 * mu ≤ c ∧ (c = x ∨ c = 7 ∨ (c : ℝ) < 2 * mu + 1) ∧
      ZTPoissonBy.tableLoop GQ (fin mu) fuel x = some (((List.range' x (c - x)).map fun k => fin (G k)) ++ [fin 1]) := by
  intro fuel
  induction fuel with
  | zero => intro x _ h; omega
  | succ n ih =>
    intro x hx _ h1x
    rw [ZTPoissonBy.tableLoop]
    by_cases hc : (x : ℤ) < 7 ∨ ofInt x < 2 * fin mu
    · rw [if_pos hc]
      have hn : 1 ≤ n := by
        by_contra hn
        have hx' : x = 2 ^ 31 - 1 := by omega
        rcases hc with hc | hc
        · omega
        · rw [ofNat_fin, fin_mul, ofInt, fin_lt, hx'] at hc
          norm_num at hc
          linarith
      obtain ⟨c, h1, h2, h4, h5, h6, h7⟩ := ih (x + 1) (by omega) hn (by omega)
      refine ⟨c, by omega, h2, by omega, h5, ?_, ?_⟩
      · rcases h6 with h6 | h6
        · rcases hc with hc | hc
          · by_cases h : x = 6
            · right; left; omega
            · have := h4 (by omega); omega
          · right; right
            rw [ofNat_fin, fin_mul, ofInt, fin_lt] at hc
            rw [h6]; push_cast at hc ⊢; linarith
        · exact Or.inr h6
      · push_cast at h7
        rw [h7, Option.map_some, hG x h1x, show c - x = (c - (x + 1)) + 1 by omega, List.range'_succ]
        rfl
    · rw [if_neg hc]
      refine ⟨x, le_rfl, by omega, fun h => absurd (Or.inl (by omega)) hc, ?_, Or.inl rfl, by simp⟩
      push Not at hc
      have := hc.2
      rw [ofNat_fin, fin_mul, ofInt, fin_lt] at this
      push_cast at this
      linarith

theorem zt_table {GQ : XR → XR → XR} {mu : ℝ} {G : ℕ → ℝ} (h0 : G 0 = 0)
    (hG : ∀ k : ℕ, 1 ≤ k → (XR.exp (fin mu) * GQ (ofInt k + 1) (fin mu) - 1) / expm1 (fin mu) = fin (G k)) (hm : 2 * mu ≤ 2 ^ 31 - 1) :
    ∃ c : ℕ, 7 ≤ c ∧ c < 2 ^ 31 ∧ 2 * mu ≤ c ∧ (c = 7 ∨ (c : ℝ) < 2 * mu + 1) ∧ ZTPoissonBy.table GQ (fin mu) = some ((table G c).map fin) := by
  obtain ⟨c, -, h2, h4, h5, h6, h7⟩ := zt_tableLoop hG hm (2 ^ 31 - 1) 1 (by norm_num) (by norm_num) le_rfl
  have h4 := h4 (by norm_num)
  refine ⟨c, h4, h2, h5, h6.resolve_left (by omega), ?_⟩
  rw [ZTPoissonBy.table]
  have h7' : ZTPoissonBy.tableLoop GQ (fin mu) (2 ^ 31 - 1) 1 = _ := h7
  rw [h7', table, List.range_eq_range', Option.map_some, show c = (c - 1) + 1 by omega, List.range'_succ]
  simp [h0]

end Trng.TailApprox
