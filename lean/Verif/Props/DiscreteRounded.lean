import Verif.Proofs.DiscreteRounded
import Verif.Props.PeriodDiscrete

/-! Property C108: discrete_dist with arbitrary non-negative weights, in the arithmetic of double. -/
namespace Trng.Props
open Spec PeriodLaw Trng.Uniform FP Trng.Discrete

variable {σ : Type} {G : Gen σ} {e : σ} {T : ℕ}

/-- C108: for non-negative weights, at most 2^30 of them and not all zero, every deviate `c` in [0, 1) up to 1 - 2^-43 yields the index `k` of a weight,
and a sample `k` is only returned if `c` is between the relative cumulative weights of `k`, up to an error of 2^-43. -/
theorem C108_draw (w : List ℚ) (hw : ∀ x ∈ w, 0 ≤ x) (hs : 0 < w.sum) (hl : w.length ≤ 2 ^ 30) :
    ∃ D, WTree.construct float64.rnd w = some D ∧ ∀ c : ℚ, 0 ≤ c → c < 1 →
      (c < 1 - 2 ^ (-43 : ℤ) → ∃ k : ℕ, k < w.length ∧ D.draw float64.rnd c = some (k : ℤ)) ∧
      ∀ r, D.draw float64.rnd c = some r → ∃ k : ℕ, r = k ∧
        (w.take k).sum / w.sum - 2 ^ (-43 : ℤ) ≤ c ∧ c ≤ (w.take (k + 1)).sum / w.sum + 2 ^ (-43 : ℤ) := by
  have hne : w ≠ [] := by rintro rfl; simp at hs
  have hpos : 0 < w.length := List.length_pos_iff.2 hne
  obtain ⟨D, hD, -, hoff, hle, hL, htree⟩ := construct_tree float64.rnd w hne
  refine ⟨D, hD, fun c c0 c1 => ?_⟩
  have h30 : D.layers ≤ 30 := by
    rw [hL, IntMath.log2Ceil_eq hpos]; exact (Nat.clog_le_iff_le_pow (by norm_num)).2 hl
  obtain ⟨ha, hb⟩ := draw_near float64_nearest (by decide) hw hs htree hle hoff c0 c1.le (growth_float64 h30)
  constructor
  · intro hc
    rcases hx : D.draw float64.rnd c with _ | r
    · have := ha hx; linarith
    · obtain ⟨k, rfl, -, h1, -⟩ := hb r hx
      refine ⟨k, ?_, rfl⟩
      by_contra hk
      rw [cum_past (not_lt.1 hk), ← sum_eq_cum, div_self hs.ne'] at h1
      linarith
  · intro r hr
    obtain ⟨k, hk, -, h1, h2⟩ := hb r hr
    rw [← take_sum] at h1 h2
    exact ⟨k, hk, h1, h2⟩

/-- Weights that are not representable sums: 1/10, 1/5, 7/10 rounded to double. -/
example : ∃ D, WTree.construct float64.rnd [float64.rnd (1 / 10), float64.rnd (1 / 5), float64.rnd (7 / 10)] = some D ∧
    D.draw float64.rnd (1 / 4) = some 1 ∧ D.draw float64.rnd (1 / 2) = some 2 ∧ D.draw float64.rnd (1 / 20) = some 0 :=
  ⟨_, rfl, by decide +kernel, by decide +kernel, by decide +kernel⟩

/-- C108: if the number of weights is a power of two, then the result is the index of a weight for every deviate, whatever the rounding and the weights. -/
theorem C108_power_of_two {α : Type} [Field α] [LinearOrder α] (rnd : α → α) (w : List α) {L : ℕ} (hl : w.length = 2 ^ L) :
    ∃ D, WTree.construct rnd w = some D ∧ ∀ c, ∃ k : ℕ, k < w.length ∧ D.draw rnd c = some (k : ℤ) := by
  have hne : w ≠ [] := by rintro rfl; have := Nat.one_le_two_pow (n := L); rw [List.length_nil] at hl; omega
  have hpos : 0 < w.length := List.length_pos_iff.2 hne
  obtain ⟨D, hD, -, hoff, -, hL, htree⟩ := construct_tree rnd w hne
  rw [IntMath.log2Ceil_eq hpos, hl, Nat.clog_pow 2 L (by norm_num)] at hL
  refine ⟨D, hD, fun c => ?_⟩
  have hlen := htree.len
  rw [hL, hl] at hlen
  rw [hL] at hoff
  have h1 := Nat.one_le_two_pow (n := L)
  have h2 := Nat.lt_two_pow_self (n := L)
  rw [WTree.draw, List.getElem?_eq_getElem (show 0 < D.P.length by omega), Option.bind_eq_bind, Option.bind_some]
  obtain ⟨k, hk, h⟩ := descend_full (rnd := rnd) hlen L (D.offset + 1) 0 0 (rnd (c * D.P[0])) (by omega) (by omega) (by norm_num)
  rw [pow_zero, Nat.sub_self, Nat.add_zero, ← hoff] at h
  refine ⟨k, by omega, ?_⟩
  rw [h]
  simp

/-- The weights of `C72_discrete_rounding_wrong` with a fourth weight 0 lead to an index of a weight, although one whose weight is 0. -/
example : ((WTree.construct float64.rnd [3 / 2, 0, 2 ^ 52 + 2, 0]).bind fun D => D.draw float64.rnd (1 - 2 ^ (-53 : ℤ))) = some 3 := by decide +kernel

open Classical in
/-- C108: over a period of an engine that returns every number equally often, for every `j` the fraction of samples up to `j` is the relative
cumulative weight, the fraction of samples `j` is the relative weight, and the fraction of samples that are not the index of a weight is 0, up to
2^-43 (twice that for a single index), the resolution of the engine and 1/T. -/
theorem C108_law (hG : G.Sound) (hE : Equidistributed G e T) (w : List ℚ) (hw : ∀ x ∈ w, 0 ≤ x) (hs : 0 < w.sum) (hl : w.length ≤ 2 ^ 30) :
    ∃ D, WTree.construct float64.rnd w = some D ∧
      (∀ j < w.length, |(((Finset.range T).filter fun k => ∃ i : ℕ, i ≤ j ∧ nth (D.sample float64 G) e k = some (i : ℤ)).card : ℝ) / T -
        (((w.take (j + 1)).sum / w.sum : ℚ) : ℝ)| ≤ 2e-13 + 13 / (G.max - G.min : ℝ) + 1 / T) ∧
      (∀ j < w.length, |(((Finset.range T).filter fun k => nth (D.sample float64 G) e k = some (j : ℤ)).card : ℝ) / T -
        ((w.getD j 0 / w.sum : ℚ) : ℝ)| ≤ 2 * (2e-13 + 13 / (G.max - G.min : ℝ) + 1 / T)) ∧
      (((Finset.range T).filter fun k => ¬ ∃ i : ℕ, i < w.length ∧ nth (D.sample float64 G) e k = some (i : ℤ)).card : ℝ) / T ≤
        2e-13 + 13 / (G.max - G.min : ℝ) + 1 / T := by
  have hne : w ≠ [] := by rintro rfl; simp at hs
  have hpos : 0 < w.length := List.length_pos_iff.2 hne
  obtain ⟨D, hD, hdraw⟩ := C108_draw w hw hs hl
  obtain ⟨D', hD', hN, -⟩ := construct_tree float64.rnd w hne
  obtain rfl : D = D' := Option.some.inj (hD.symm.trans hD')
  refine ⟨D, hD, ?_⟩
  have hv : ∀ s, D.sample float64 G s = (D.draw float64.rnd (uniformco float64 G s).1, (uniformco float64 G s).2) := fun s => by
    rw [WTree.sample, if_neg (by omega)]
  have hst : ∀ s, (D.sample float64 G s).2 = (G.call s).2 := fun s => by
    rw [hv]; exact (calls_one (F := float64) (by decide) hG s).2.2.2
  have hnth : ∀ k, nth (D.sample float64 G) e k = D.draw float64.rnd (uniformco float64 G (afterCalls G.call k e)).1 := fun k => by
    rw [nth, after_eq hst, hv]
  have hm := cum_mono hw
  have hT : (0 : ℝ) < T := by exact_mod_cast hE.1
  have h5 := pos_nonneg' hG
  have hε : (0 : ℝ) ≤ 2e-13 + 13 / (G.max - G.min : ℝ) + 1 / T := by
    have : (G.min : ℝ) < G.max := by exact_mod_cast hG.lt
    have : (0 : ℝ) < G.max - G.min := by linarith
    positivity
  have hcum : ∀ j < w.length, |(((Finset.range T).filter fun k => ∃ i : ℕ, i ≤ j ∧ nth (D.sample float64 G) e k = some (i : ℤ)).card : ℝ) / T -
        (((w.take (j + 1)).sum / w.sum : ℚ) : ℝ)| ≤ 2e-13 + 13 / (G.max - G.min : ℝ) + 1 / T := by
    intro j hj
    have c0 : 0 ≤ (w.take (j + 1)).sum / w.sum := by
      rw [take_sum]; refine div_nonneg ?_ hs.le
      rw [← cum_zero w]; exact hm (Nat.zero_le _)
    have c1 : (w.take (j + 1)).sum / w.sum ≤ 1 := by
      rw [take_sum, div_le_one hs, sum_eq_cum]; exact hm hj
    have h43 : (((2 : ℚ) ^ (-43 : ℤ) : ℚ) : ℝ) ≤ 1.5e-13 := by norm_num
    refine (between hG hE (c := (((w.take (j + 1)).sum / w.sum : ℚ) : ℝ)) (δ := 1.5e-13 + (12 / (G.max - G.min) + 4e-15)) (by exact_mod_cast c0)
      (by exact_mod_cast c1) (by linarith) (fun k _ hk => ?_) fun k _ hk => ?_).trans ((sum_le hG).trans (by linarith))
    · obtain ⟨u, eu, u0, u1, ha⟩ := co_facts hG (afterCalls G.call k e)
      rw [hnth]
      set c := (uniformco float64 G (afterCalls G.call k e)).1
      have hlt : ((c + 2 ^ (-43 : ℤ) : ℚ) : ℝ) < (((w.take (j + 1)).sum / w.sum : ℚ) : ℝ) := by
        rw [Rat.cast_add, eu]; linarith [(abs_le.1 ha).2]
      have hlt' : c + 2 ^ (-43 : ℤ) < (w.take (j + 1)).sum / w.sum := by exact_mod_cast hlt
      have g0 : 0 ≤ c := by rw [← eu] at u0; exact_mod_cast u0
      have g1 : c < 1 := by rw [← eu] at u1; exact_mod_cast u1
      obtain ⟨a, b⟩ := hdraw c g0 g1
      obtain ⟨i, -, hi⟩ := a (lt_sub_iff_add_lt.2 (hlt'.trans_le c1))
      refine ⟨i, ?_, hi⟩
      obtain ⟨i', hi', h1, -⟩ := b _ hi
      have : i = i' := by exact_mod_cast hi'
      subst this
      by_contra hc
      rw [take_sum] at h1 hlt'
      have := div_le_div_of_nonneg_right (hm (show j + 1 ≤ i by omega)) hs.le
      linarith
    · obtain ⟨u, eu, u0, u1, ha⟩ := co_facts hG (afterCalls G.call k e)
      rw [hnth] at hk
      set c := (uniformco float64 G (afterCalls G.call k e)).1
      have g0 : 0 ≤ c := by rw [← eu] at u0; exact_mod_cast u0
      have g1 : c < 1 := by rw [← eu] at u1; exact_mod_cast u1
      obtain ⟨i, hij, hi⟩ := hk
      obtain ⟨i', hi', -, h2⟩ := (hdraw c g0 g1).2 _ hi
      have : i = i' := by exact_mod_cast hi'
      subst this
      have h3 : c ≤ (w.take (j + 1)).sum / w.sum + 2 ^ (-43 : ℤ) := by
        rw [take_sum] at h2 ⊢
        have := div_le_div_of_nonneg_right (hm (show i + 1 ≤ j + 1 by omega)) hs.le
        linarith
      have h4 : (c : ℝ) ≤ (((w.take (j + 1)).sum / w.sum : ℚ) : ℝ) + (((2 : ℚ) ^ (-43 : ℤ) : ℚ) : ℝ) := by exact_mod_cast h3
      rw [eu] at h4
      linarith [(abs_le.1 ha).1]
  refine ⟨hcum, fun j hj => ?_, ?_⟩
  · have hcj := hcum j hj
    rcases Nat.eq_zero_or_pos j with rfl | h0
    · have e1 : (w.take (0 + 1)).sum = w.getD 0 0 := by rw [take_sum, cum_succ, cum_zero, zero_add]
      rw [e1] at hcj
      simp only [Nat.le_zero, exists_eq_left] at hcj
      linarith
    · have hcp := hcum (j - 1) (by omega)
      rw [Nat.sub_add_cancel h0] at hcp
      have hcard : ((Finset.range T).filter fun k => ∃ i : ℕ, i ≤ j ∧ nth (D.sample float64 G) e k = some (i : ℤ)).card =
          ((Finset.range T).filter fun k => ∃ i : ℕ, i ≤ j - 1 ∧ nth (D.sample float64 G) e k = some (i : ℤ)).card +
          ((Finset.range T).filter fun k => nth (D.sample float64 G) e k = some (j : ℤ)).card := by
        rw [← Finset.card_union_of_disjoint, ← Finset.filter_or]
        · congr 1
          refine Finset.filter_congr fun k _ => ⟨?_, ?_⟩
          · rintro ⟨i, hi, h⟩
            rcases Nat.lt_or_ge i j with h' | h'
            · exact Or.inl ⟨i, by omega, h⟩
            · exact Or.inr (by rw [h, show i = j by omega])
          · rintro (⟨i, hi, h⟩ | h)
            · exact ⟨i, by omega, h⟩
            · exact ⟨j, le_rfl, h⟩
        · rw [Finset.disjoint_filter]
          rintro k - ⟨i, hi, h⟩ h'
          rw [h] at h'
          have : (i : ℤ) = j := Option.some.inj h'
          omega
      rw [hcard, take_sum, cum_succ, ← take_sum, add_div, Nat.cast_add, add_div, Rat.cast_add] at hcj
      have a1 := abs_le.1 hcj
      have a2 := abs_le.1 hcp
      rw [abs_le]
      constructor <;> linarith [a1.1, a1.2, a2.1, a2.2]
  · have hcj := (abs_le.1 (hcum (w.length - 1) (by omega))).1
    have hc := Finset.card_filter_add_card_filter_not (s := Finset.range T)
      (fun k => ∃ i : ℕ, i < w.length ∧ nth (D.sample float64 G) e k = some (i : ℤ))
    rw [Finset.card_range] at hc
    have he : ((Finset.range T).filter fun k => ∃ i : ℕ, i ≤ w.length - 1 ∧ nth (D.sample float64 G) e k = some (i : ℤ)) =
        (Finset.range T).filter fun k => ∃ i : ℕ, i < w.length ∧ nth (D.sample float64 G) e k = some (i : ℤ) :=
      Finset.filter_congr fun k _ => ⟨fun ⟨i, h, h'⟩ => ⟨i, by omega, h'⟩, fun ⟨i, h, h'⟩ => ⟨i, by omega, h'⟩⟩
    rw [he, Nat.sub_add_cancel hpos, List.take_length, div_self hs.ne', Rat.cast_one] at hcj
    have hc' : (((Finset.range T).filter fun k => ¬ ∃ i : ℕ, i < w.length ∧ nth (D.sample float64 G) e k = some (i : ℤ)).card : ℝ) =
        T - ((Finset.range T).filter fun k => ∃ i : ℕ, i < w.length ∧ nth (D.sample float64 G) e k = some (i : ℤ)).card := by
      rw [eq_sub_iff_add_eq, add_comm]; exact_mod_cast hc
    rw [hc', sub_div, div_self hT.ne']
    linarith

/-- The weights 1/10, 1/5, 7/10 with the default lcg64: the index 1 is returned with a frequency of 1/5 over the period. -/
example (w : List ℚ) (hw : w = [float64.rnd (1 / 10), float64.rnd (1 / 5), float64.rnd (7 / 10)]) :
    (∀ x ∈ w, 0 ≤ x) ∧ 0 < w.sum ∧ w.length ≤ 2 ^ 30 ∧ (gen64 LCG64.call).Sound ∧ Equidistributed (gen64 LCG64.call) ⟨LCG64.Default, 0⟩ (2 ^ 64) := by
  subst hw
  exact ⟨by decide +kernel, by decide +kernel, by norm_num, gen64_sound _, (C101_lcg64 _ (by decide) (by decide)).1⟩

/-- C108: `pdf` and `cdf` in double: 0 outside the indices (`cdf`: 1 above), relative error at most 2^-46 and (x + 32) 2^-51 else. -/
theorem C108_pdf_cdf (w : List ℚ) (hw : ∀ x ∈ w, 0 ≤ x) (hs : 0 < w.sum) (hl : w.length ≤ 2 ^ 30) :
    ∃ D, WTree.construct float64.rnd w = some D ∧
      (∀ x : ℤ, x < 0 → D.pdf float64.rnd x = some 0 ∧ D.cdf float64.rnd x = some 0) ∧
      (∀ x : ℤ, w.length ≤ x → D.pdf float64.rnd x = some 0 ∧ D.cdf float64.rnd x = some 1) ∧
      ∀ x : ℕ, x < w.length → ∃ f c, D.pdf float64.rnd x = some f ∧ D.cdf float64.rnd x = some c ∧
        |f - w.getD x 0 / w.sum| ≤ 2 ^ (-46 : ℤ) * (w.getD x 0 / w.sum) ∧
        |c - (w.take (x + 1)).sum / w.sum| ≤ (x + 32) * 2 ^ (-51 : ℤ) * ((w.take (x + 1)).sum / w.sum) := by
  have hne : w ≠ [] := by rintro rfl; simp at hs
  have hpos : 0 < w.length := List.length_pos_iff.2 hne
  obtain ⟨D, hD, hN, hoff, hle, hL, htree⟩ := construct_tree float64.rnd w hne
  refine ⟨D, hD, fun x hx => ⟨?_, ?_⟩, fun x hx => ⟨?_, ?_⟩, fun x hx => ?_⟩
  · rw [WTree.pdf, if_pos (Or.inl hx)]
  · rw [WTree.cdf, if_pos hx]
  · rw [WTree.pdf, hN, if_pos (Or.inr hx)]
  · rw [WTree.cdf, hN, if_neg (by omega), if_neg (by omega)]
  have h30 : D.layers ≤ 30 := by
    rw [hL, IntMath.log2Ceil_eq hpos]; exact (Nat.clog_le_iff_le_pow (by norm_num)).2 hl
  obtain ⟨p0, h0⟩ : ∃ p0, D.P[0]? = some p0 := by
    have : 0 < D.P.length := by rw [htree.len]; omega
    exact ⟨_, List.getElem?_eq_getElem this⟩
  have hroot := htree.near float64_nearest (by decide) hw D.layers 0 (by omega) 0 (by norm_num)
  rw [pow_zero, Nat.sub_self, Nat.add_zero, List.getD_eq_getElem?_getD, h0, Option.getD_some, Nat.zero_mul, Nat.zero_add,
    Nat.one_mul, cum_zero, sub_zero, cum_past hle, ← sum_eq_cum] at hroot
  have hg30 : growth float64 D.layers ≤ 60 * 2 ^ (-53 : ℤ) := by
    have h1 := growth_mono float64 h30
    have h2 := growth_le float64 30 (by decide +kernel)
    have h3 : 2 * ((30 : ℕ) : ℚ) * (2 : ℚ) ^ (-(float64.p : ℤ)) = 60 * 2 ^ (-53 : ℤ) := by decide +kernel
    linarith
  have hroot' : |p0 - w.sum| ≤ 60 * 2 ^ (-53 : ℤ) * w.sum := hroot.trans (mul_le_mul_of_nonneg_right hg30 hs.le)
  have h60 : (60 * 2 ^ (-53 : ℤ) : ℚ) ≤ 1 / 8 := by norm_num
  have hd : D.P.drop D.offset = w := by
    apply List.ext_getElem?
    intro i
    rw [List.getElem?_drop, hoff, htree.leaf]
  refine ⟨float64.rnd (w.getD x 0 / p0), float64.rnd (accumulate float64.rnd (w.take (x + 1)) / p0), ?_, ?_, ?_, ?_⟩
  · rw [WTree.pdf, hN, if_neg (by omega), Int.toNat_natCast, Nat.add_comm, hoff, htree.leaf, h0, List.getElem?_eq_getElem hx, List.getD_eq_getElem _ _ hx]
    rfl
  · rw [WTree.cdf, hN, if_neg (by omega), if_pos (by omega), Int.toNat_natCast, hd, h0]
    rfl
  · have hx0 : 0 ≤ w.getD x 0 := by rw [List.getD_eq_getElem _ _ hx]; exact hw _ (List.getElem_mem hx)
    refine (quotient_near float64_nearest (by decide) hx0 hs le_rfl (by positivity) h60 (by norm_num) (by simp) hroot').trans
      (mul_le_mul_of_nonneg_right ?_ (div_nonneg hx0 hs.le))
    show (2 * (0 + 60 * 2 ^ (-53 : ℤ)) + 2 * 2 ^ (-(53 : ℤ)) : ℚ) ≤ 2 ^ (-46 : ℤ)
    norm_num
  · have hc0 : 0 ≤ (w.take (x + 1)).sum := by rw [take_sum, ← cum_zero w]; exact cum_mono hw (Nat.zero_le _)
    have hacc := accumulate_near float64_nearest (by decide) (w.take (x + 1)) 0 0 0 (fun y hy => hw y (List.mem_of_mem_take hy)) le_rfl (by simp)
    rw [zero_add, zero_add, List.length_take, Nat.min_eq_left hx] at hacc
    have hxq : ((x + 1 : ℕ) : ℚ) ≤ 2 ^ 30 := by exact_mod_cast hx.trans_le hl
    have hp53 : (2 : ℚ) ^ (-(float64.p : ℤ)) = 2 ^ (-53 : ℤ) := rfl
    have hgx := growth_le float64 (x + 1) (by
      rw [hp53]
      calc 2 * ((x + 1 : ℕ) : ℚ) * 2 ^ (-53 : ℤ) ≤ 2 * 2 ^ 30 * 2 ^ (-53 : ℤ) := by gcongr
        _ ≤ 1 := by norm_num)
    rw [hp53] at hgx
    have h8 : 2 * ((x + 1 : ℕ) : ℚ) * 2 ^ (-53 : ℤ) ≤ 1 / 8 := by
      calc 2 * ((x + 1 : ℕ) : ℚ) * 2 ^ (-53 : ℤ) ≤ 2 * 2 ^ 30 * 2 ^ (-53 : ℤ) := by gcongr
        _ ≤ 1 / 8 := by norm_num
    refine (quotient_near float64_nearest (by decide) hc0 hs (by positivity) (by positivity) h60 h8
      (hacc.trans (mul_le_mul_of_nonneg_right hgx hc0)) hroot').trans (mul_le_mul_of_nonneg_right ?_ (div_nonneg hc0 hs.le))
    rw [hp53, show (2 : ℚ) ^ (-51 : ℤ) = 4 * 2 ^ (-53 : ℤ) by norm_num]
    have : (0 : ℚ) < 2 ^ (-53 : ℤ) := by positivity
    push_cast
    nlinarith

/-- C108: `cdf` does not decrease from one index to the next. -/
theorem C108_cdf_monotone_partial (w : List ℚ) (hw : ∀ x ∈ w, 0 ≤ x) (hs : 0 < w.sum) :
    ∃ D, WTree.construct float64.rnd w = some D ∧ ∀ x y : ℤ, x ≤ y → y < w.length → ∃ a b, D.cdf float64.rnd x = some a ∧ D.cdf float64.rnd y = some b ∧ a ≤ b := by
  have hne : w ≠ [] := by rintro rfl; simp at hs
  have hpos : 0 < w.length := List.length_pos_iff.2 hne
  obtain ⟨D, hD, hN, hoff, -, -, htree⟩ := construct_tree float64.rnd w hne
  refine ⟨D, hD, fun x y hxy hy => ?_⟩
  obtain ⟨p0, h0⟩ : ∃ p0, D.P[0]? = some p0 := by
    have : 0 < D.P.length := by rw [htree.len]; omega
    exact ⟨_, List.getElem?_eq_getElem this⟩
  have hp0 := htree.nonneg float64_nearest hw (List.mem_of_getElem? h0)
  have hd : D.P.drop D.offset = w := by
    apply List.ext_getElem?
    intro i
    rw [List.getElem?_drop, hoff, htree.leaf]
  have hv : ∀ n : ℕ, n < w.length → D.cdf float64.rnd n = some (float64.rnd (accumulate float64.rnd (w.take (n + 1)) / p0)) := fun n hn => by
    rw [WTree.cdf, hN, if_neg (by omega), if_pos (by omega), Int.toNat_natCast, hd, h0]
    rfl
  have hmono : ∀ n m : ℕ, n ≤ m → m ≤ w.length → accumulate float64.rnd (w.take n) ≤ accumulate float64.rnd (w.take m) := by
    intro n m hnm hm
    induction m, hnm using Nat.le_induction with
    | base => exact le_rfl
    | succ m _ ih => exact (ih (by omega)).trans (accumulate_mono float64_nearest hw hm)
  rcases lt_or_ge x 0 with hx | hx
  · have hx' : D.cdf float64.rnd x = some 0 := by rw [WTree.cdf, if_pos hx]
    rcases lt_or_ge y 0 with hy0 | hy0
    · exact ⟨0, 0, hx', by rw [WTree.cdf, if_pos hy0], le_rfl⟩
    · obtain ⟨m, rfl⟩ := Int.eq_ofNat_of_zero_le hy0
      refine ⟨0, _, hx', hv m (by omega), float64_nearest.nonneg (div_nonneg ?_ hp0)⟩
      exact hmono 0 (m + 1) (Nat.zero_le _) (by omega)
  · obtain ⟨n, rfl⟩ := Int.eq_ofNat_of_zero_le hx
    obtain ⟨m, rfl⟩ := Int.eq_ofNat_of_zero_le (hx.trans hxy)
    exact ⟨_, _, hv n (by omega), hv m (by omega), float64_nearest.mono (div_le_div_of_nonneg_right (hmono _ _ (by omega) (by omega)) hp0)⟩

/-- But it can exceed 1 at the last index and then decrease to 1: with fifteen weights 0.1 it is 1 + 2^-52. -/
theorem C108_cdf_wrong :
    ∃ D, WTree.construct float64.rnd (List.replicate 15 (float64.rnd (1 / 10))) = some D ∧
      D.cdf float64.rnd 14 = some (1 + 2 ^ (-52 : ℤ)) ∧ D.cdf float64.rnd 15 = some 1 :=
  ⟨_, rfl, by decide +kernel, by decide +kernel⟩

/-- C108: the same after any history of `param(x, p)` that leaves non-negative weights, not all zero. -/
theorem C108_history (w : List ℚ) (D : WTree ℚ) (hD : WTree.construct float64.rnd w = some D) (ops : List (ℕ × ℚ))
    (ho : ∀ o ∈ ops, o.1 < w.length ∧ (o.1 + 1 < w.length ∨ w.length % 2 = 0 ∨ w.length = 1)) :
    let v := ops.foldl (fun w o => w.set o.1 o.2) w
    (∀ x ∈ v, 0 ≤ x) → 0 < v.sum → v.length ≤ 2 ^ 30 →
    ∃ D', ops.foldlM (fun D o => D.setWeight float64.rnd o.1 o.2) D = some D' ∧ ∀ c : ℚ, 0 ≤ c → c < 1 →
      (c < 1 - 2 ^ (-43 : ℤ) → ∃ k : ℕ, k < v.length ∧ D'.draw float64.rnd c = some (k : ℤ)) ∧
      ∀ r, D'.draw float64.rnd c = some r → ∃ k : ℕ, r = k ∧
        (v.take k).sum / v.sum - 2 ^ (-43 : ℤ) ≤ c ∧ c ≤ (v.take (k + 1)).sum / v.sum + 2 ^ (-43 : ℤ) := by
  intro v hv hs hl
  rw [C53_history_partial float64.rnd ops w D hD ho]
  exact C108_draw v hv hs hl

/-- Four weights, of which two are changed. -/
example : let w : List ℚ := [1, 2, 3, 4]
    let ops : List (ℕ × ℚ) := [(0, float64.rnd (1 / 10)), (3, 0)]
    let v := ops.foldl (fun w o => w.set o.1 o.2) w
    (∀ o ∈ ops, o.1 < w.length ∧ (o.1 + 1 < w.length ∨ w.length % 2 = 0 ∨ w.length = 1)) ∧ v = [float64.rnd (1 / 10), 2, 3, 0] ∧
      (∀ x ∈ v, 0 ≤ x) ∧ 0 < v.sum ∧ v.length ≤ 2 ^ 30 := by
  refine ⟨by decide +kernel, rfl, by decide +kernel, by decide +kernel, by norm_num⟩

end Trng.Props
