import Verif.Proofs.DiscreteDraw

/-! C51, C52, C53, C54, C72: search in a cumulative table, discrete_dist and fast_discrete_dist. -/
namespace Trng
open Discrete FP Trng.Uniform MeasureTheory

/-! ### C51 -/

/-- `utility::discrete` on a non-empty table, which need not be sorted: below the first entry the result is 0, else
it is an index `i ≥ 1` (0 if there is only one entry) with `x ≤ table[i]` unless `i` is the last one, and
`table[i-1] < x` unless `i = 1`. -/
theorem C51_search {α : Type} [Field α] [LinearOrder α] (x : α) (t : List α) (ht : t ≠ []) :
    (x < t.getD 0 0 → search x t = some 0) ∧
    (t.getD 0 0 ≤ x → t.length = 1 → search x t = some 0) ∧
    (t.getD 0 0 ≤ x → 2 ≤ t.length → ∃ i, search x t = some i ∧ 1 ≤ i ∧ i < t.length ∧
      (i = 1 ∨ t.getD (i - 1) 0 < x) ∧ (i = t.length - 1 ∨ x ≤ t.getD i 0)) := by
  have hl : 0 < t.length := List.length_pos_iff.2 ht
  have e : t[0]? = some (t.getD 0 0) := by rw [List.getElem?_eq_getElem hl, List.getD_eq_getElem _ _ hl]
  rw [search, e, Option.bind_some]
  refine ⟨fun h => if_pos h, fun h h1 => ?_, fun h h2 => ?_⟩
  · rw [if_neg (not_lt.2 h), h1]
    rfl
  · rw [if_neg (not_lt.2 h)]
    exact searchLoop_spec _ _ _ (by omega) (by omega) (by omega) (Or.inl rfl) (Or.inl rfl)

/-- On a non-decreasing table and for `x` from the second entry's reach on, the result is the least index `i ≥ 1` with
`x ≤ table[i]`, or the last index if there is none. -/
theorem C51_search_sorted {α : Type} [Field α] [LinearOrder α] (x : α) (t : List α) (h2 : 2 ≤ t.length)
    (hs : ∀ i j, i ≤ j → j < t.length → t.getD i 0 ≤ t.getD j 0) (hx : t.getD 0 0 ≤ x) (i : Nat) :
    search x t = some i ↔
      1 ≤ i ∧ i < t.length ∧ (∀ j, 1 ≤ j → j < i → t.getD j 0 < x) ∧ (x ≤ t.getD i 0 ∨ i = t.length - 1) := by
  obtain ⟨k, hk, h1, hkl, ha, hb⟩ := (C51_search x t (by rintro rfl; simp at h2)).2.2 hx h2
  have hbelow : ∀ j, 1 ≤ j → j < k → t.getD j 0 < x := by
    intro j hj1 hjk
    rcases ha with h | h
    · omega
    · exact lt_of_le_of_lt (hs _ _ (by omega) (by omega)) h
  rw [hk]
  constructor
  · intro h
    have : k = i := Option.some.inj h
    subst this
    exact ⟨h1, hkl, hbelow, hb.symm⟩
  · rintro ⟨i1, il, hib, hil⟩
    congr 1
    rcases Nat.lt_trichotomy k i with h | h | h
    · have := hib k h1 h
      rcases hb with hb | hb
      · omega
      · exact absurd this (not_lt.2 hb)
    · exact h
    · have := hbelow i i1 h
      rcases hil with hil | hil
      · exact absurd this (not_lt.2 hil)
      · omega

/-- At `x = table[0]` the result is 1, not 0. -/
example : search (0 : ℚ) [0, 1 / 2, 1] = some 1 ∧ search (3 / 4 : ℚ) [0, 1 / 2, 1] = some 2 ∧
    search (1 / 2 : ℚ) [1 / 4, 1 / 2, 1] = some 1 ∧ search (7 : ℚ) [0, 1 / 2, 1] = some 2 := by decide +kernel

/-! ### C52 -/

/-- In exact arithmetic a deviate `c` is mapped to the index `k` with
`w_0 + … + w_(k-1) ≤ c·sum < w_0 + … + w_k`; the result is always an index of a weight. -/
theorem C52_discrete_exact {α : Type} [Field α] [LinearOrder α] [IsStrictOrderedRing α] (w : List α) (hw : ∀ x ∈ w, 0 ≤ x) (hs : 0 < w.sum) :
    ∃ T, WTree.construct id w = some T ∧ ∀ c, 0 ≤ c → c < 1 →
      (∃ k : Nat, k < w.length ∧ T.draw id c = some (k : ℤ)) ∧
      ∀ k : Nat, T.draw id c = some (k : ℤ) ↔ (w.take k).sum ≤ c * w.sum ∧ c * w.sum < (w.take (k + 1)).sum := by
  have hne : w ≠ [] := by rintro rfl; simp at hs
  obtain ⟨T, hT, hN, hoff, hle, -, htree⟩ := construct_tree id w hne
  refine ⟨T, hT, fun c h0 h1 => ?_⟩
  obtain ⟨k, hk, hkl, hk1, hk2⟩ := draw_spec htree hne hle hoff (rnd := id) (Good := fun _ => True) (c := c) (fun _ _ _ _ _ => ⟨rfl, trivial⟩) trivial
    (mul_nonneg h0 hs.le) (by rw [id]; nlinarith)
  rw [id] at hk1 hk2
  refine ⟨⟨k, hkl, hk⟩, fun k' => ?_⟩
  rw [take_sum, take_sum, hk]
  constructor
  · intro h
    have : k = k' := by exact_mod_cast Option.some.inj h
    subst this
    exact ⟨hk1, hk2⟩
  · rintro ⟨a, b⟩
    congr 2
    have hm := cum_mono hw
    rcases Nat.lt_trichotomy k k' with h | h | h
    · have := hm (show k + 1 ≤ k' by omega)
      exact absurd hk2 (not_lt.2 (this.trans a))
    · exact h
    · have := hm (show k' + 1 ≤ k by omega)
      exact absurd b (not_lt.2 (this.trans hk1))

/-- Hence, in real arithmetic, `k` is returned with probability `w_k / sum`. -/
theorem C52_discrete_law (w : List ℝ) (hw : ∀ x ∈ w, 0 ≤ x) (hs : 0 < w.sum) :
    ∃ T, WTree.construct id w = some T ∧
      Spec.DiscreteLaw (T.draw id) fun k => if 0 ≤ k then w.getD k.toNat 0 / w.sum else 0 := by
  obtain ⟨T, hT, h⟩ := C52_discrete_exact w hw hs
  refine ⟨T, hT, fun u h0 h1 => ?_, fun k => ?_⟩
  · obtain ⟨k, -, hk⟩ := (h u h0 h1).1
    rw [hk]; rfl
  · split_ifs with hk
    · obtain ⟨n, rfl⟩ := Int.eq_ofNat_of_zero_le hk
      have hm := cum_mono hw
      have h0 : 0 ≤ cum w n := by rw [← cum_zero w]; exact hm (Nat.zero_le n)
      have h1 : cum w (n + 1) ≤ w.sum := by
        rcases Nat.le_total (n + 1) w.length with hn | hn
        · rw [sum_eq_cum]; exact hm hn
        · rw [cum_past hn, sum_eq_cum]
      have : {u : ℝ | 0 ≤ u ∧ u < 1 ∧ T.draw id u = some (n : ℤ)} = Set.Ico (cum w n / w.sum) (cum w (n + 1) / w.sum) := by
        ext u
        rw [Set.mem_ofPred_eq, Set.mem_Ico, div_le_iff₀ hs, lt_div_iff₀ hs]
        constructor
        · rintro ⟨a, b, c⟩
          have := ((h u a b).2 n).1 c
          rwa [take_sum, take_sum] at this
        · rintro ⟨a, b⟩
          have hu0 : 0 ≤ u := by
            by_contra hc
            have : u * w.sum < 0 := mul_neg_of_neg_of_pos (not_le.1 hc) hs
            linarith
          have hu1 : u < 1 := by
            by_contra hc
            have : 1 * w.sum ≤ u * w.sum := mul_le_mul_of_nonneg_right (not_lt.1 hc) hs.le
            linarith
          refine ⟨hu0, hu1, ((h u hu0 hu1).2 n).2 ?_⟩
          rw [take_sum, take_sum]
          exact ⟨a, b⟩
      rw [this, Real.volume_Ico, ← sub_div, cum_succ, add_sub_cancel_left]
      rfl
    · have : {u : ℝ | 0 ≤ u ∧ u < 1 ∧ T.draw id u = some k} = ∅ := by
        ext u
        simp only [Set.mem_ofPred_eq, Set.mem_empty_iff_false, iff_false]
        rintro ⟨a, b, c⟩
        obtain ⟨n, -, hn⟩ := (h u a b).1
        rw [hn] at c
        have := Option.some.inj c
        omega
      rw [this, measure_empty, ENNReal.ofReal_zero]

/-- In floating-point arithmetic the same holds with the rounded product of deviate and sum, if the weights are integers
(or integer multiples of a power of two) that add up to at most `2^p`: the result is an index of a weight. -/
theorem C72_discrete_float_partial {σ : Type} {F : Fmt} (hF : Nearest F) (hp : 2 ≤ F.p) {G : Gen σ} (hG : G.Sound) (m : List Nat) (e : ℤ)
    (h0 : 0 < m.sum) (hs : m.sum ≤ 2 ^ F.p) :
    let w := m.map fun n : Nat => (n : ℚ) * 2 ^ e
    ∃ T, WTree.construct F.rnd w = some T ∧ ∀ s, ∃ k : Nat, k < m.length ∧ (T.sample F G s).1 = some (k : ℤ) ∧
      (w.take k).sum ≤ F.rnd ((uniformco F G s).1 * w.sum) ∧ F.rnd ((uniformco F G s).1 * w.sum) < (w.take (k + 1)).sum := by
  intro w
  have hlen : w.length = m.length := List.length_map ..
  have hcum : ∀ n, cum w n = ((m.take n).sum : ℚ) * 2 ^ e := by
    intro n
    rw [← take_sum, List.map_take.symm]
    exact sum_scaled _ _
  have hle : ∀ n, (m.take n).sum ≤ 2 ^ F.p := fun n => (List.Sublist.sum_le_sum (List.take_sublist n m) (by simp)).trans hs
  have hsum : w.sum = (m.sum : ℚ) * 2 ^ e := sum_scaled _ _
  have hz := two_zpow_pos e
  have hspos : 0 < w.sum := by rw [hsum]; exact mul_pos (by exact_mod_cast h0) hz
  have hne : w ≠ [] := by intro hc; rw [hc] at hspos; simp at hspos
  obtain ⟨T0, hT0, hN, hoff, hle0, hlay, htree⟩ := construct_tree id w hne
  obtain ⟨T, hT, hN', hoff', hle', hlay', htree'⟩ := construct_tree F.rnd w hne
  have hmem : ∀ l ∈ T0.P, ∃ n : Nat, l = (n : ℚ) * 2 ^ e ∧ n ≤ 2 ^ F.p := by
    intro l hl
    obtain ⟨a, b, hab, rfl⟩ := htree.mem_cum hle0 hl
    refine ⟨(m.take b).sum - (m.take a).sum, ?_, by have := hle b; omega⟩
    have : (m.take a).sum ≤ (m.take b).sum := by
      have : m.take a = (m.take b).take a := by rw [List.take_take, min_eq_left hab]
      rw [this]
      exact List.Sublist.sum_le_sum (List.take_sublist _ _) (by simp)
    rw [hcum, hcum, Nat.cast_sub this]; ring
  have hrep : ∀ n : Nat, n ≤ 2 ^ F.p → Rep F.p ((n : ℚ) * 2 ^ e) := by
    intro n hn
    have := Rep.of_le (p := F.p) (by omega) (k := n) (e := e) (by rw [abs_of_nonneg (by positivity)]; exact_mod_cast hn)
    exact_mod_cast this
  -- the rounded tree is the exact one
  have hround : IsTree F.rnd w T0.layers T0.P := by
    refine ⟨htree.len, htree.leaf, fun i hi => ?_⟩
    have h1 := htree.node i hi
    rw [h1]
    congr 1
    unfold nodeVal at h1 ⊢
    rcases ha : T0.P[2 * i + 1]? with _ | a
    · rfl
    · rcases hb : T0.P[2 * i + 2]? with _ | b
      · rfl
      · rw [ha, hb] at h1
        obtain ⟨n, hn, hn2⟩ := hmem _ (List.mem_of_getElem? h1)
        simp only [id] at hn ⊢
        rw [hn, hF.exact (hrep n hn2)]
  have hTP : T.P = T0.P := by
    have : T.layers = T0.layers := by rw [hlay, hlay']
    rw [this] at htree'
    exact htree'.unique hround
  refine ⟨T, hT, fun s => ?_⟩
  obtain ⟨c0, c1⟩ := Traits.co_range (T := ⟨F, 1, G.max - G.min⟩) hF hp hG rfl s
  set c := (uniformco F G s).1 with hc
  have htree2 : IsTree id w T.layers T.P := by rw [hTP, hlay', ← hlay]; exact htree
  have hrs : Rep F.p w.sum := by rw [hsum]; exact hrep _ hs
  have hU0 : 0 ≤ F.rnd (c * w.sum) := hF.nonneg (mul_nonneg c0 hspos.le)
  have hU1 : F.rnd (c * w.sum) < w.sum := by
    have := scaled_lt hF hp (hF.rep _) c1 hspos
    rwa [hF.exact hrs] at this
  obtain ⟨k, hk, hkl, hk1, hk2⟩ := draw_spec (rnd := F.rnd) (c := c) htree2 hne hle' hoff'
    (Good := fun u => Rep F.p u ∧ 0 ≤ u ∧ u < 2 ^ F.p * 2 ^ e) (fun u l hg hl hle => by
      obtain ⟨hr, hu0, hu1⟩ := hg
      obtain ⟨n, rfl, hn⟩ := hmem l (by rw [← hTP]; exact hl)
      have hsubrep : Rep F.p (u - n * 2 ^ e) := rep_sub hr hu0 hu1 hle
      have : (0 : ℚ) ≤ n * 2 ^ e := by positivity
      exact ⟨hF.exact hsubrep, hsubrep, by linarith, by linarith⟩)
    ⟨hF.rep _, hU0, lt_of_lt_of_le hU1 (by
      rw [hsum]
      exact mul_le_mul_of_nonneg_right (by exact_mod_cast hs) hz.le)⟩ hU0 hU1
  refine ⟨k, by rw [← hlen]; exact hkl, ?_, by rw [take_sum]; exact hk1, by rw [take_sum]; exact hk2⟩
  have hT0 : T.N ≠ 0 := by rw [hN']; exact fun hc => hne (List.length_eq_zero_iff.1 hc)
  rw [WTree.sample, if_neg hT0]
  exact hk

/-- Three weights 1, 2, 3 on any 32-bit engine in `double`. -/
example {σ : Type} {G : Gen σ} (hG : G.Sound) : ∃ T, WTree.construct float64.rnd [1, 2, 3] = some T ∧
    ∀ s, ∃ k : Nat, k < 3 ∧ (T.sample float64 G s).1 = some (k : ℤ) := by
  obtain ⟨T, hT, h⟩ := C72_discrete_float_partial (rne_nearest (p := 53) (by norm_num) : Nearest float64) (by decide) hG [1, 2, 3] 0 (by decide) (by decide)
  refine ⟨T, ?_, fun s => ?_⟩
  · rw [← hT]; norm_num; rfl
  · obtain ⟨k, h1, h2, -⟩ := h s
    exact ⟨k, h1, h2⟩

/-- With other weights rounding can lead out of the tree: for the weights 1.5, 0, 2^52+2 the sample is 3, not an index of a
weight; for the weights 1.5, 0, 0, 0, 2^52+2 the code reads past the end of its vector. -/
theorem C72_discrete_rounding_wrong :
    let G : Gen Unit := ⟨fun s => (2 ^ 64 - 1, s), 0, 2 ^ 64 - 1⟩
    ((WTree.construct float64.rnd [3 / 2, 0, 2 ^ 52 + 2]).bind fun T => (T.sample float64 G ()).1) = some 3 ∧
    (WTree.construct float64.rnd [3 / 2, 0, 0, 0, 2 ^ 52 + 2]).isSome ∧
    ((WTree.construct float64.rnd [3 / 2, 0, 0, 0, 2 ^ 52 + 2]).bind fun T => (T.sample float64 G ()).1) = none :=
  ⟨by decide +kernel, by decide +kernel, by decide +kernel⟩

/-- `pdf` and `cdf` are those of the law (exact arithmetic). -/
theorem C52_discrete_pdf_cdf {α : Type} [Field α] [LinearOrder α] [IsStrictOrderedRing α] (w : List α) (hw : w ≠ []) :
    ∃ T, WTree.construct id w = some T ∧ ∀ x : ℤ,
      T.pdf id x = some (if 0 ≤ x ∧ x < w.length then w.getD x.toNat 0 / w.sum else 0) ∧
      T.cdf id x = some (if x < 0 then 0 else if x < w.length then (w.take (x.toNat + 1)).sum / w.sum else 1) := by
  obtain ⟨T, hT, hN, hoff, hle, -, htree⟩ := construct_tree id w hw
  have hroot := tree_root hw hle htree
  refine ⟨T, hT, fun x => ⟨?_, ?_⟩⟩
  · rw [WTree.pdf, hN]
    split_ifs with h1 h2 h2
    · omega
    · rfl
    · rw [Nat.add_comm, hoff, htree.leaf, hroot, List.getElem?_eq_getElem (by omega), List.getD_eq_getElem _ _ (by omega)]
      rfl
    · omega
  · rw [WTree.cdf, hN]
    split_ifs with h1 h2
    · rfl
    · have hd : T.P.drop T.offset = w := by
        apply List.ext_getElem?
        intro i
        rw [List.getElem?_drop, hoff, htree.leaf]
      rw [hroot, hd, accumulate_id]
      rfl
    · rfl

example : (WTree.construct id [(1 : ℚ), 2, 3, 4, 5]).bind (fun T => T.cdf id 2) = some (6 / 15) := by decide +kernel

/-! ### C53 -/

/-- `param(x, p)` gives the same object as constructing the distribution from the changed weights, for every rounding,
unless `x` is the last of an odd number (above 1) of weights. -/
theorem C53_update_partial {α : Type} [Field α] [LinearOrder α] (rnd : α → α) (w : List α) (T : WTree α) (hT : WTree.construct rnd w = some T)
    (x : Nat) (hx : x < w.length) (hodd : x + 1 < w.length ∨ w.length % 2 = 0 ∨ w.length = 1) (p : α) :
    T.setWeight rnd x p = WTree.construct rnd (w.set x p) := by
  have hne : w ≠ [] := by rintro rfl; simp at hx
  obtain ⟨T1, hT1, hN, hoff, hle, hlay, htree⟩ := construct_tree rnd w hne
  rw [hT] at hT1
  have := Option.some.inj hT1
  subst this
  have hne2 : w.set x p ≠ [] := by simpa using hne
  obtain ⟨T2, hT2, hN2, hoff2, hle2, hlay2, htree2⟩ := construct_tree rnd (w.set x p) hne2
  rw [hT2]
  rw [List.length_set] at hN2 hle2 hlay2
  have hl2 : T2.layers = T.layers := by rw [hlay, hlay2]
  suffices h : ∃ P', (set? T.P (x + T.offset) p).bind (fun P => if x + T.offset > 0 then raise rnd (x + T.offset + 1) (x + T.offset) P else some P) = some P' ∧
      IsTree rnd (w.set x p) T.layers P' by
    obtain ⟨P', h1, h2⟩ := h
    have hP : P' = T2.P := h2.unique (hl2 ▸ htree2)
    have : T.setWeight rnd x p = some { T with P := P' } := by
      unfold WTree.setWeight
      rw [Option.bind_eq_some_iff] at h1
      obtain ⟨Q, hQ1, hQ2⟩ := h1
      rw [hQ1, Option.bind_some, hQ2, Option.map_some]
    rw [this, hP]
    obtain ⟨a, b, c, d⟩ := T2
    simp only at hN2 hoff2 hlay2 hl2 ⊢
    subst hl2
    rw [hoff2, ← hoff, hN2, ← hN]
  have hP := htree.len
  rw [set?_some (by omega), Option.bind_some]
  set P := T.P.set (x + T.offset) p with hPdef
  have hlenP : P.length = 2 ^ T.layers - 1 + (w.set x p).length := by rw [hPdef, List.length_set, List.length_set, hP]
  have hleaf : ∀ k, P[2 ^ T.layers - 1 + k]? = (w.set x p)[k]? := by
    intro k
    by_cases hk : k = x
    · subst hk
      rw [hPdef, Nat.add_comm, hoff, List.getElem?_set_self (by omega), List.getElem?_set_self hx]
    · rw [hPdef, List.getElem?_set_ne (by omega), htree.leaf, List.getElem?_set_ne (by omega)]
  have hp1 := Nat.one_le_two_pow (n := T.layers)
  split_ifs with hpos
  · have hpw : T.layers ≠ 0 := by
      intro hc
      rw [hc] at hle hoff
      omega
    have ho := two_pow_odd (l := T.layers) (by omega)
    refine raise_spec (by rw [List.length_set]; omega) _ _ P (by omega) hpos ?_ ?_ hlenP hleaf ?_
    · have hls : (w.set x p).length = w.length := List.length_set ..
      have hlP : P.length = T.offset + w.length := by rw [hlenP, hls, hoff]
      have h1 : w.length = 1 → T.layers = 0 := by intro h; rw [hlay, h]; decide
      rw [hlP]
      omega
    · omega
    · intro i hi hne
      rw [hPdef, List.getElem?_set_ne (by omega), htree.node i hi]
      congr 1
      apply nodeVal_congr
      · rw [List.getElem?_set_ne (by omega)]
      · rw [List.getElem?_set_ne (by omega)]
  · refine ⟨P, rfl, hlenP, hleaf, fun i hi => ?_⟩
    omega

/-- The same for a history of updates. -/
theorem C53_history_partial {α : Type} [Field α] [LinearOrder α] (rnd : α → α) (ops : List (Nat × α)) :
    ∀ (w : List α) (T : WTree α), WTree.construct rnd w = some T →
    (∀ o ∈ ops, o.1 < w.length ∧ (o.1 + 1 < w.length ∨ w.length % 2 = 0 ∨ w.length = 1)) →
    ops.foldlM (fun T o => T.setWeight rnd o.1 o.2) T = WTree.construct rnd (ops.foldl (fun w o => w.set o.1 o.2) w) := by
  induction ops with
  | nil => intro w T hT _; exact hT.symm
  | cons o ops ih =>
    intro w T hT h
    obtain ⟨h1, h2⟩ := h o (by simp)
    have hu := C53_update_partial rnd w T hT o.1 h1 h2 o.2
    rw [List.foldlM_cons, List.foldl_cons, hu]
    have hne : w.set o.1 o.2 ≠ [] := by
      have : w ≠ [] := by rintro rfl; simp at h1
      simpa using this
    obtain ⟨T', hT', -⟩ := construct_tree rnd (w.set o.1 o.2) hne
    rw [hT', Option.bind_eq_bind, Option.bind_some]
    exact ih _ T' hT' (fun o' ho' => by rw [List.length_set]; exact h o' (by simp [ho']))

/-- For the last of an odd number of weights `param(x, p)` reads past the end of the vector, for all weights. -/
theorem C53_update_wrong {α : Type} [Field α] [LinearOrder α] (rnd : α → α) (w : List α) (T : WTree α) (hT : WTree.construct rnd w = some T)
    (h1 : 1 < w.length) (hodd : w.length % 2 = 1) (p : α) : T.setWeight rnd (w.length - 1) p = none := by
  have hne : w ≠ [] := by rintro rfl; simp at h1
  obtain ⟨T1, hT1, hN, hoff, hle, hlay, htree⟩ := construct_tree rnd w hne
  rw [hT] at hT1
  have := Option.some.inj hT1
  subst this
  have hpw : T.layers ≠ 0 := by
    intro hc
    rw [hc] at hle
    omega
  have ho := two_pow_odd (l := T.layers) (by omega)
  have hP := htree.len
  unfold WTree.setWeight
  rw [set?_some (by omega)]
  rw [Option.bind_some, if_pos (by omega), raise]
  have e1 : 2 * ((w.length - 1 + T.offset - 1) / 2) + 2 = T.P.length := by rw [hP, hoff]; omega
  have : (T.P.set (w.length - 1 + T.offset) p)[2 * ((w.length - 1 + T.offset - 1) / 2) + 2]? = none := by
    rw [List.getElem?_eq_none_iff, List.length_set, e1]
  rw [this]
  simp only [Option.bind_eq_bind, Option.bind_none, Option.bind_fun_none, Option.map_none]

example : (WTree.construct id [(1 : ℚ), 2, 3]).bind (fun T => T.setWeight id 2 5) = none ∧
    (WTree.construct id [(1 : ℚ), 2, 3]).bind (fun T => T.setWeight id 1 5) = WTree.construct id [1, 5, 3] ∧
    (WTree.construct id [(1 : ℚ), 2, 3]).isSome := by decide +kernel

/-! ### C54 -/

/-- As written: for any weights every sample reads from an empty vector, `max()` is -1 and `pdf` is 0 everywhere. -/
theorem C54_fast_discrete_wrong {α : Type} [Field α] [LinearOrder α] [IsStrictOrderedRing α] (rnd : α → α) (w : List α) :
    ∃ A, Alias.construct rnd w = some A ∧ (∀ fl c, A.draw rnd fl c = none) ∧ A.maxValue = -1 ∧ ∀ x, A.pdf x = some 0 := by
  refine ⟨⟨w, [], [], 0⟩, ?_, ?_, rfl, ?_⟩
  · rw [Alias.construct, Alias.body]
    have : ¬ (accumulate rnd ([] : List α) > 0) := by
      show ¬ ((0 : α) > 0)
      exact lt_irrefl _
    simp only
    rw [if_neg this]
    rfl
  · intro fl c
    rw [Alias.draw]
    simp
  · intro x
    rw [Alias.pdf]
    apply if_pos
    show x < 0 ∨ x ≥ ((0 : Nat) : ℤ)
    omega

/-- The alias method itself: had the tables been sized and filled from the weights, `k` would be returned with probability
`w_k / sum` (real arithmetic). -/
theorem C54_alias_partial (w : List ℝ) (hw : ∀ x ∈ w, 0 ≤ x) (hs : 0 < w.sum) :
    ∃ A, Alias.intended id w = some A ∧ A.maxValue = w.length - 1 ∧
      Spec.DiscreteLaw (A.draw id Nat.floor) fun k => if 0 ≤ k then w.getD k.toNat 0 / w.sum else 0 := by
  obtain ⟨A, hA, hN, hok⟩ := intended_spec hw hs
  refine ⟨A, hA, by rw [Alias.maxValue, hN], ?_⟩
  have hpos : 0 < w.length := by
    rcases w with _ | ⟨x, w⟩
    · simp at hs
    · simp
  exact alias_law (p := fun k => w.getD k 0 / w.sum) hok hpos hN (fun k hk => rfl) (fun k hk => by rw [List.getD_eq_default _ _ hk, zero_div])

example : (Alias.intended id [(1 : ℚ), 2, 3, 4, 5]).map (fun A => (A.F, A.L)) = some ([1 / 3, 2 / 3, 1, 1, 2 / 3], [4, 4, 0, 0, 3]) := by
  decide +kernel

end Trng
