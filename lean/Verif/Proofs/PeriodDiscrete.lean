import Verif.Proofs.PeriodChain
import Verif.Model.PeriodDiscrete
import Verif.Spec.PeriodDiscrete

/-! Counting integer samples of one period. -/
namespace Trng.PeriodLaw
open XR FP Trng.Uniform Spec
open Classical

variable {σ : Type} {G : Gen σ} {e : σ} {T : ℕ}

/-- The fraction of the calls whose position is at most `b`. -/
theorem position_le (hG : G.Sound) (hE : Equidistributed G e T) {b : ℝ} (h0 : 0 ≤ b) (h1 : b ≤ 1) :
    |(((Finset.range T).filter fun k => pos G (afterCalls G.call k e) ≤ b).card : ℝ) / T - b| ≤ 1 / (G.max - G.min + 1) + 1 / T := by
  have h := (follows (sample := fun s => (fin (pos G s), (G.call s).2)) hG hE (fun _ => rfl) (uniform_law one_pos).1 (uniform_law one_pos).2 (δ := 0) le_rfl
    fun s => ⟨pos G s, rfl, by
      have h0 : 0 ≤ pos G s := by
        have := (hG.range s).1
        have h2 : (G.min : ℝ) ≤ (G.call s).1 := by exact_mod_cast this
        have h3 : (G.min : ℝ) < G.max := by exact_mod_cast hG.lt
        exact div_nonneg (by linarith) (by linarith)
      have h1 : pos G s ≤ 1 := by
        have := (hG.range s).2
        have h2 : ((G.call s).1 : ℝ) ≤ G.max := by exact_mod_cast this
        have h3 : (G.min : ℝ) < G.max := by exact_mod_cast hG.lt
        exact (div_le_one (by linarith)).2 (by linarith)
      rw [clamp_law one_pos]
      refine (clamp_close h0 h1).trans ?_
      simp⟩).law b
  have e1 : uniformLaw 0 1 b = b := by
    unfold uniformLaw
    split_ifs <;> [linarith; linarith; ring]
  rw [e1] at h
  have e2 : ∀ k, (nth (fun s => (fin (pos G s), (G.call s).2)) e k ≤ fin b) = (pos G (afterCalls G.call k e) ≤ b) := fun k => by
    rw [nth, after_eq (f := fun s => (fin (pos G s), (G.call s).2)) (g := G.call) fun _ => rfl, fin_le]
  simp only [e2, zero_add] at h
  exact h

/-- Subsets have smaller fractions. -/
theorem frac_mono {A B : ℕ → Prop} [DecidablePred A] [DecidablePred B] (h : ∀ k, k < T → A k → B k) :
    (((Finset.range T).filter A).card : ℝ) / T ≤ (((Finset.range T).filter B).card : ℝ) / T := by
  refine div_le_div_of_nonneg_right ?_ (Nat.cast_nonneg T)
  exact_mod_cast Finset.card_le_card fun k hk => by
    simp only [Finset.mem_filter, Finset.mem_range] at hk ⊢
    exact ⟨hk.1, h k hk.1 hk.2⟩

theorem frac_le_one {A : ℕ → Prop} [DecidablePred A] : (((Finset.range T).filter A).card : ℝ) / T ≤ 1 := by
  refine div_le_one_of_le₀ ?_ (Nat.cast_nonneg T)
  have := Finset.card_filter_le (Finset.range T) A
  rw [Finset.card_range] at this
  exact_mod_cast this

theorem frac_nonneg {A : ℕ → Prop} [DecidablePred A] : 0 ≤ (((Finset.range T).filter A).card : ℝ) / T := by positivity

theorem frac_compl (hT : 0 < T) {A B : ℕ → Prop} [DecidablePred A] [DecidablePred B] (h : ∀ k, B k ↔ ¬ A k) :
    (((Finset.range T).filter A).card : ℝ) / T + (((Finset.range T).filter B).card : ℝ) / T = 1 := by
  have hT' : (0 : ℝ) < T := by exact_mod_cast hT
  have h1 := Finset.card_filter_add_card_filter_not (s := Finset.range T) A
  rw [Finset.card_range] at h1
  have h2 : (Finset.range T).filter B = (Finset.range T).filter fun k => ¬ A k := Finset.filter_congr fun k _ => h k
  rw [h2, ← add_div, div_eq_one_iff_eq hT'.ne']
  exact_mod_cast h1

/-- A set of calls bounded by positions on both sides. -/
theorem between (hG : G.Sound) (hE : Equidistributed G e T) {A : ℕ → Prop} [DecidablePred A] {c δ : ℝ} (h0 : 0 ≤ c) (h1 : c ≤ 1) (hδ : 0 ≤ δ)
    (hlow : ∀ k, k < T → pos G (afterCalls G.call k e) < c - δ → A k) (hhigh : ∀ k, k < T → A k → pos G (afterCalls G.call k e) ≤ c + δ) :
    |(((Finset.range T).filter A).card : ℝ) / T - c| ≤ δ + 1 / (G.max - G.min + 1) + 1 / T := by
  have hT : (0 : ℝ) < T := by exact_mod_cast hE.1
  have hm : (0 : ℝ) ≤ 1 / (G.max - G.min + 1) := by
    have : (G.min : ℝ) < G.max := by exact_mod_cast hG.lt
    exact div_nonneg zero_le_one (by linarith)
  have hT1 : (0 : ℝ) ≤ 1 / T := by positivity
  refine abs_le.2 ⟨?_, ?_⟩
  · refine le_of_forall_pos_le_add fun η hη => ?_
    rcases lt_or_ge (c - δ - η) 0 with hc | hc
    · linarith [frac_nonneg (T := T) (A := A)]
    have h2 := (abs_le.1 (position_le hG hE hc (by linarith))).1
    have h3 := frac_mono (T := T) (A := fun k => pos G (afterCalls G.call k e) ≤ c - δ - η) (B := A) fun k hk h => hlow k hk (by linarith)
    linarith
  · rcases lt_or_ge 1 (c + δ) with hc | hc
    · linarith [frac_le_one (T := T) (A := A)]
    have h2 := (abs_le.1 (position_le hG hE (b := c + δ) (by linarith) hc)).2
    have h3 := frac_mono (T := T) (A := A) (B := fun k => pos G (afterCalls G.call k e) ≤ c + δ) hhigh
    linarith

theorem IntegersFollow.mono {sample : σ → Option ℤ × σ} {lo : ℤ} {p : ℤ → ℝ} {ε δ : ℝ} (h : IntegersFollow sample e T lo p ε) (hd : ε ≤ δ) :
    IntegersFollow sample e T lo p δ :=
  ⟨h.defined, fun t => (h.atMost t).trans hd, fun v hv => (h.exactly v hv).trans (by linarith)⟩

theorem upTo_succ {lo v : ℤ} (h : lo ≤ v) (p : ℤ → ℝ) : upTo lo p v = upTo lo p (v - 1) + p v := by
  unfold upTo
  have : Finset.Icc lo v = insert v (Finset.Icc lo (v - 1)) := by
    ext x; simp only [Finset.mem_Icc, Finset.mem_insert]; omega
  rw [this, Finset.sum_insert (by simp), add_comm]

theorem upTo_mono {lo : ℤ} {p : ℤ → ℝ} (hp : ∀ x, 0 ≤ p x) : Monotone (upTo lo p) :=
  fun _ _ hab => Finset.sum_le_sum_of_subset_of_nonneg (Finset.Icc_subset_Icc_right hab) fun x _ _ => hp x

theorem upTo_nonneg {lo : ℤ} {p : ℤ → ℝ} (hp : ∀ x, 0 ≤ p x) (t : ℤ) : 0 ≤ upTo lo p t := Finset.sum_nonneg fun x _ => hp x

/-- Counting each value follows from counting the values up to each bound. -/
theorem exactly_of {sample : σ → Option ℤ × σ} {lo : ℤ} {p : ℤ → ℝ} {δ : ℝ}
    (hd : ∀ k, k < T → ∃ n, nth sample e k = some n ∧ lo ≤ n)
    (h : ∀ t, |(((Finset.range T).filter fun k => ∃ n, nth sample e k = some n ∧ n ≤ t).card : ℝ) / T - upTo lo p t| ≤ δ) :
    IntegersFollow sample e T lo p δ := by
  refine ⟨hd, h, fun v hv => ?_⟩
  have h1 := abs_le.1 (h v)
  have h2 := abs_le.1 (h (v - 1))
  have e1 : ((Finset.range T).filter fun k => ∃ n, nth sample e k = some n ∧ n ≤ v).card =
      ((Finset.range T).filter fun k => nth sample e k = some v).card + ((Finset.range T).filter fun k => ∃ n, nth sample e k = some n ∧ n ≤ v - 1).card := by
    rw [← Finset.card_union_of_disjoint]
    · congr 1
      ext k
      simp only [Finset.mem_filter, Finset.mem_union]
      constructor
      · rintro ⟨hk, n, hn, hnv⟩
        rcases hnv.eq_or_lt with rfl | hlt
        · exact Or.inl ⟨hk, hn⟩
        · exact Or.inr ⟨hk, n, hn, by omega⟩
      · rintro (⟨hk, hn⟩ | ⟨hk, n, hn, hnv⟩)
        · exact ⟨hk, v, hn, le_rfl⟩
        · exact ⟨hk, n, hn, by omega⟩
    · rw [Finset.disjoint_left]
      intro k hk hk'
      simp only [Finset.mem_filter] at hk hk'
      obtain ⟨-, n, hn, hnv⟩ := hk'
      rw [hk.2] at hn
      have := Option.some.inj hn
      omega
  rw [e1, upTo_succ hv] at h1
  push_cast at h1
  rw [add_div] at h1
  exact abs_le.2 ⟨by linarith [h1.1, h2.2], by linarith [h1.2, h2.1]⟩

section
variable {sample : σ → Option ℤ × σ} {lo : ℤ} {p : ℤ → ℝ} {δ : ℝ}

/-- Samples that increase with the engine's result. -/
theorem integers (hG : G.Sound) (hE : Equidistributed G e T) (hs : ∀ s, (sample s).2 = (G.call s).2) (hp : ∀ x, 0 ≤ p x) (h1 : ∀ t, upTo lo p t ≤ 1)
    (hδ : 0 ≤ δ) (h : ∀ s, ∃ n, (sample s).1 = some n ∧ lo ≤ n ∧ upTo lo p (n - 1) - δ ≤ pos G s ∧ pos G s ≤ upTo lo p n + δ) :
    IntegersFollow sample e T lo p (δ + 1 / (G.max - G.min + 1) + 1 / T) := by
  have hnth : ∀ k, nth sample e k = (sample (afterCalls G.call k e)).1 := fun k => by rw [nth, after_eq hs]
  have hmono := upTo_mono (lo := lo) hp
  have key := fun t => between hG hE (A := fun k => ∃ n, nth sample e k = some n ∧ n ≤ t) (upTo_nonneg hp t) (h1 t) hδ (fun k _ hk => by
    obtain ⟨n, hn, -, h2, -⟩ := h (afterCalls G.call k e)
    refine ⟨n, by rw [hnth, hn], ?_⟩
    by_contra hc
    have := hmono (show t ≤ n - 1 by omega)
    linarith) fun k _ hk => by
    obtain ⟨m, hm, hmt⟩ := hk
    obtain ⟨n, hn, -, -, h2⟩ := h (afterCalls G.call k e)
    rw [hnth, hn] at hm
    cases Option.some.inj hm
    linarith [hmono hmt]
  refine exactly_of (fun k _ => ?_) key
  obtain ⟨n, hn, hl, -⟩ := h (afterCalls G.call k e)
  exact ⟨n, by rw [hnth, hn], hl⟩

/-- Samples that decrease with the engine's result. -/
theorem integers_rev (hG : G.Sound) (hE : Equidistributed G e T) (hs : ∀ s, (sample s).2 = (G.call s).2) (hp : ∀ x, 0 ≤ p x) (h1 : ∀ t, upTo lo p t ≤ 1)
    (hδ : 0 ≤ δ) (h : ∀ s, ∃ n, (sample s).1 = some n ∧ lo ≤ n ∧ upTo lo p (n - 1) - δ ≤ 1 - pos G s ∧ 1 - pos G s ≤ upTo lo p n + δ) :
    IntegersFollow sample e T lo p (δ + 1 / (G.max - G.min + 1) + 1 / T) := by
  have hnth : ∀ k, nth sample e k = (sample (afterCalls G.call k e)).1 := fun k => by rw [nth, after_eq hs]
  have hmono := upTo_mono (lo := lo) hp
  refine exactly_of (fun k _ => ?_) fun t => ?_
  · obtain ⟨n, hn, hl, -⟩ := h (afterCalls G.call k e)
    exact ⟨n, by rw [hnth, hn], hl⟩
  have hsum := frac_compl hE.1 (A := fun k => ∃ n, nth sample e k = some n ∧ n ≤ t) (B := fun k => ¬ ∃ n, nth sample e k = some n ∧ n ≤ t) fun _ => Iff.rfl
  have hb := between hG hE (A := fun k => ¬ ∃ n, nth sample e k = some n ∧ n ≤ t) (c := 1 - upTo lo p t) (δ := δ) (by linarith [h1 t])
    (by linarith [upTo_nonneg (lo := lo) hp t]) hδ (fun k _ hk => ?_) fun k _ hk => ?_
  · obtain ⟨h2, h3⟩ := abs_le.1 hb
    exact abs_le.2 ⟨by linarith, by linarith⟩
  · rintro ⟨m, hm, hmt⟩
    obtain ⟨n, hn, -, -, h2⟩ := h (afterCalls G.call k e)
    rw [hnth, hn] at hm
    cases Option.some.inj hm
    linarith [hmono hmt]
  · obtain ⟨n, hn, -, h2, -⟩ := h (afterCalls G.call k e)
    have : t ≤ n - 1 := by
      by_contra hc
      exact hk ⟨n, by rw [hnth, hn], by omega⟩
    linarith [hmono this]

end
end Trng.PeriodLaw
