import Verif.Spec.PeriodLaw
import Mathlib.Algebra.Order.Floor.Semiring
import Mathlib.Tactic.Linarith
import Mathlib.Tactic.Positivity
import Mathlib.Tactic.FieldSimp
import Mathlib.Tactic.Ring
import Mathlib.Algebra.BigOperators.Group.Finset.Basic
import Mathlib.Algebra.Order.BigOperators.Group.Finset

/-! Counting the samples of one period. -/
namespace Trng.PeriodLaw
open XR Trng.Uniform Spec
open Classical

variable {σ : Type}

theorem count_le {T c : ℕ} {x : ℕ → ℕ} (h : ∀ v, ((Finset.range T).filter fun k => x k = v).card ≤ c) (A : Finset ℕ) :
    ((Finset.range T).filter fun k => x k ∈ A).card ≤ c * A.card := by
  have : ((Finset.range T).filter fun k => x k ∈ A).card = ∑ v ∈ A, (((Finset.range T).filter fun k => x k ∈ A).filter fun k => x k = v).card :=
    Finset.card_eq_sum_card_fiberwise (fun k hk => (Finset.mem_filter.1 hk).2)
  rw [this, mul_comm]
  refine (Finset.sum_le_card_nsmul A _ c fun v _ => le_trans (Finset.card_le_card ?_) (h v)).trans_eq (by rw [smul_eq_mul])
  intro k hk
  simp only [Finset.mem_filter] at hk ⊢
  exact ⟨hk.1.1, hk.2⟩

theorem card_low (m : ℕ) {b : ℝ} (hb : 0 ≤ b) : (((Finset.range (m + 1)).filter fun w : ℕ => (w : ℝ) ≤ b * m).card : ℝ) ≤ b * m + 1 := by
  have hb' : 0 ≤ b * m := by positivity
  have : ((Finset.range (m + 1)).filter fun w : ℕ => (w : ℝ) ≤ b * m) ⊆ Finset.range (⌊b * m⌋₊ + 1) := by
    intro w hw
    simp only [Finset.mem_filter, Finset.mem_range] at hw ⊢
    exact Nat.lt_succ_of_le (Nat.le_floor hw.2)
  have h := Finset.card_le_card this
  rw [Finset.card_range] at h
  have h2 : (((Finset.range (m + 1)).filter fun w : ℕ => (w : ℝ) ≤ b * m).card : ℝ) ≤ ⌊b * m⌋₊ + 1 := by exact_mod_cast h
  linarith [Nat.floor_le hb']

/-- The fraction of the calls whose relative position is at most `b` (counted from either end). -/
theorem frac_le {T c m : ℕ} (hT : 0 < T) (hc : c * (m + 1) ≤ T + 1) {x : ℕ → ℕ} (h : ∀ v, ((Finset.range T).filter fun k => x k = v).card ≤ c)
    {b : ℝ} (hb : 0 ≤ b) {S : Finset ℕ} (hS : ∀ k ∈ S, k < T ∧ x k ≤ m ∧ (x k : ℝ) ≤ b * m) :
    (S.card : ℝ) / T ≤ b + 1 / (m + 1) + 1 / T := by
  have hT' : (0 : ℝ) < T := by exact_mod_cast hT
  have hm : (0 : ℝ) < m + 1 := by positivity
  have hST : (S.card : ℝ) / T ≤ 1 := by
    rw [div_le_one hT']
    have : S ⊆ Finset.range T := fun k hk => Finset.mem_range.2 (hS k hk).1
    have := Finset.card_le_card this
    rw [Finset.card_range] at this
    exact_mod_cast this
  set A := (Finset.range (m + 1)).filter fun w : ℕ => (w : ℝ) ≤ b * m with hA
  have hcard := card_low m hb
  have h1 : S.card ≤ c * A.card := by
    refine le_trans (Finset.card_le_card fun k hk => ?_) (count_le h A)
    obtain ⟨a1, a2, a3⟩ := hS k hk
    simp only [Finset.mem_filter, Finset.mem_range, hA]
    exact ⟨a1, Nat.lt_succ_of_le a2, a3⟩
  have h2 : (S.card : ℝ) ≤ c * (b * m + 1) := by
    calc (S.card : ℝ) ≤ c * (A.card : ℝ) := by exact_mod_cast h1
      _ ≤ _ := by gcongr
  have h3 : (c : ℝ) * (m + 1) ≤ T + 1 := by exact_mod_cast hc
  have hq0 : 0 ≤ (b * m + 1) / (m + 1) := by positivity
  have hq : (b * m + 1) / (m + 1) ≤ b + 1 / (m + 1) := by
    rw [add_div]
    have : b * m / (m + 1) ≤ b := by
      rw [div_le_iff₀ hm]; nlinarith
    linarith
  have h4 : (S.card : ℝ) / T ≤ (b * m + 1) / (m + 1) * (1 + 1 / T) := by
    rw [div_le_iff₀ hT']
    calc (S.card : ℝ) ≤ c * (b * m + 1) := h2
      _ = c * (m + 1) * ((b * m + 1) / (m + 1)) := by field_simp
      _ ≤ (T + 1) * ((b * m + 1) / (m + 1)) := mul_le_mul_of_nonneg_right h3 hq0
      _ = _ := by field_simp
  have hT1 : (0 : ℝ) < 1 / T := by positivity
  rcases le_total ((b * m + 1) / (m + 1)) 1 with h5 | h5
  · have : (b * m + 1) / (m + 1) * (1 / T) ≤ 1 / T := mul_le_of_le_one_left hT1.le h5
    nlinarith
  · linarith

theorem after_eq {τ α β : Type} {f : τ → α × τ} {g : τ → β × τ} (h : ∀ s, (f s).2 = (g s).2) (e : τ) (k : ℕ) : afterCalls f k e = afterCalls g k e := by
  induction k generalizing e with
  | zero => rfl
  | succ k ih => rw [afterCalls, afterCalls, h, ih]

variable {G : Gen σ} {e : σ} {T : ℕ} {sample : σ → XR × σ} {F : ℝ → ℝ} {δ : ℝ}

/-- The position of the next result of the engine in its range, as a number from 0 to 1. -/
noncomputable def pos (G : Gen σ) (s : σ) : ℝ := ((G.call s).1 - G.min : ℝ) / (G.max - G.min)

theorem pos_mul (hG : G.Sound) (s : σ) : pos G s * ((G.max - G.min : ℕ) : ℝ) = (((G.call s).1 - G.min : ℕ) : ℝ) := by
  have h1 : (0 : ℝ) < G.max - G.min := by
    have : (G.min : ℝ) < G.max := by exact_mod_cast hG.lt
    linarith
  rw [pos, Nat.cast_sub hG.lt.le, Nat.cast_sub (hG.range s).1]
  field_simp

theorem pos_mul' (hG : G.Sound) (s : σ) : (1 - pos G s) * ((G.max - G.min : ℕ) : ℝ) = ((G.max - (G.call s).1 : ℕ) : ℝ) := by
  rw [sub_mul, pos_mul hG, one_mul, Nat.cast_sub hG.lt.le, Nat.cast_sub (hG.range s).1, Nat.cast_sub (hG.range s).2]
  ring

/-- Samples whose probability is the position of the engine's result, up to `δ`, follow the law. -/
theorem follows (hG : G.Sound) (hE : Equidistributed G e T) (hs : ∀ s, (sample s).2 = (G.call s).2) (hF : Monotone F)
    (h01 : ∀ t, 0 ≤ F t ∧ F t ≤ 1) (hδ : 0 ≤ δ) (h : ∀ s, ∃ r, (sample s).1 = fin r ∧ |F r - pos G s| ≤ δ) :
    FollowsUpTo sample e T F (δ + 1 / (G.max - G.min + 1) + 1 / T) := by
  obtain ⟨hT, c, hc, hcount⟩ := hE
  have hnth : ∀ k, nth sample e k = (sample (afterCalls G.call k e)).1 := fun k => by rw [nth, after_eq hs]
  have hm : ((G.max - G.min : ℕ) : ℝ) = G.max - G.min := Nat.cast_sub hG.lt.le
  have hT' : (0 : ℝ) < T := by exact_mod_cast hT
  refine ⟨fun k _ => ?_, fun t => ?_⟩
  · obtain ⟨r, hr, -⟩ := h (afterCalls G.call k e)
    exact ⟨r, by rw [hnth, hr]⟩
  · set S := (Finset.range T).filter fun k => nth sample e k ≤ fin t with hS
    set S' := (Finset.range T).filter fun k => ¬ nth sample e k ≤ fin t with hS'
    have hsum : (S.card : ℝ) / T + (S'.card : ℝ) / T = 1 := by
      have := Finset.card_filter_add_card_filter_not (s := Finset.range T) (fun k => nth sample e k ≤ fin t)
      rw [Finset.card_range] at this
      rw [← add_div, div_eq_one_iff_eq hT'.ne']
      exact_mod_cast this
    have hcount' : ∀ v, ((Finset.range T).filter fun k => nth G.call e k - G.min = v).card ≤ c := by
      intro v
      refine le_trans (Finset.card_le_card fun k hk => ?_) (hcount (v + G.min))
      simp only [Finset.mem_filter] at hk ⊢
      have := (hG.range (afterCalls G.call k e)).1
      exact ⟨hk.1, by have h2 := hk.2; simp only [nth] at h2 ⊢; omega⟩
    have hcount'' : ∀ v, ((Finset.range T).filter fun k => G.max - nth G.call e k = v).card ≤ c := by
      intro v
      refine le_trans (Finset.card_le_card fun k hk => ?_) (hcount (G.max - v))
      simp only [Finset.mem_filter] at hk ⊢
      have := (hG.range (afterCalls G.call k e)).2
      exact ⟨hk.1, by have h2 := hk.2; simp only [nth] at h2 ⊢; omega⟩
    have hlow : (S.card : ℝ) / T ≤ (F t + δ) + 1 / (((G.max - G.min : ℕ) : ℝ) + 1) + 1 / T := by
      refine frac_le hT hc hcount' (by linarith [(h01 t).1]) fun k hk => ?_
      simp only [hS, Finset.mem_filter, Finset.mem_range] at hk
      obtain ⟨r, hr, hd⟩ := h (afterCalls G.call k e)
      rw [hnth, hr, fin_le] at hk
      refine ⟨hk.1, ?_, ?_⟩
      · have := (hG.range (afterCalls G.call k e)).2
        simp only [nth]; omega
      · have := hF hk.2
        show (((G.call (afterCalls G.call k e)).1 - G.min : ℕ) : ℝ) ≤ _
        rw [← pos_mul hG]
        exact mul_le_mul_of_nonneg_right (by linarith [(abs_le.1 hd).1]) (Nat.cast_nonneg _)
    have hhigh : (S'.card : ℝ) / T ≤ (1 - F t + δ) + 1 / (((G.max - G.min : ℕ) : ℝ) + 1) + 1 / T := by
      refine frac_le hT hc hcount'' (by linarith [(h01 t).2]) fun k hk => ?_
      simp only [hS', Finset.mem_filter, Finset.mem_range] at hk
      obtain ⟨r, hr, hd⟩ := h (afterCalls G.call k e)
      rw [hnth, hr, fin_le, not_le] at hk
      refine ⟨hk.1, ?_, ?_⟩
      · have := (hG.range (afterCalls G.call k e)).1
        simp only [nth]; omega
      · have := hF hk.2.le
        show ((G.max - (G.call (afterCalls G.call k e)).1 : ℕ) : ℝ) ≤ _
        rw [← pos_mul' hG]
        exact mul_le_mul_of_nonneg_right (by linarith [(abs_le.1 hd).2]) (Nat.cast_nonneg _)
    rw [hm] at hlow hhigh
    exact abs_le.2 ⟨by linarith, by linarith⟩

/-- The same for samples that decrease with the engine's result. -/
theorem follows_rev (hG : G.Sound) (hE : Equidistributed G e T) (hs : ∀ s, (sample s).2 = (G.call s).2) (hF : Monotone F)
    (h01 : ∀ t, 0 ≤ F t ∧ F t ≤ 1) (hδ : 0 ≤ δ) (h : ∀ s, ∃ r, (sample s).1 = fin r ∧ |F r - (1 - pos G s)| ≤ δ) :
    FollowsUpTo sample e T F (δ + 1 / (G.max - G.min + 1) + 1 / T) := by
  obtain ⟨hT, c, hc, hcount⟩ := hE
  have hnth : ∀ k, nth sample e k = (sample (afterCalls G.call k e)).1 := fun k => by rw [nth, after_eq hs]
  have hm : ((G.max - G.min : ℕ) : ℝ) = G.max - G.min := Nat.cast_sub hG.lt.le
  have hT' : (0 : ℝ) < T := by exact_mod_cast hT
  refine ⟨fun k _ => ?_, fun t => ?_⟩
  · obtain ⟨r, hr, -⟩ := h (afterCalls G.call k e)
    exact ⟨r, by rw [hnth, hr]⟩
  · set S := (Finset.range T).filter fun k => nth sample e k ≤ fin t with hS
    set S' := (Finset.range T).filter fun k => ¬ nth sample e k ≤ fin t with hS'
    have hsum : (S.card : ℝ) / T + (S'.card : ℝ) / T = 1 := by
      have := Finset.card_filter_add_card_filter_not (s := Finset.range T) (fun k => nth sample e k ≤ fin t)
      rw [Finset.card_range] at this
      rw [← add_div, div_eq_one_iff_eq hT'.ne']
      exact_mod_cast this
    have hcount' : ∀ v, ((Finset.range T).filter fun k => nth G.call e k - G.min = v).card ≤ c := by
      intro v
      refine le_trans (Finset.card_le_card fun k hk => ?_) (hcount (v + G.min))
      simp only [Finset.mem_filter] at hk ⊢
      have := (hG.range (afterCalls G.call k e)).1
      exact ⟨hk.1, by have h2 := hk.2; simp only [nth] at h2 ⊢; omega⟩
    have hcount'' : ∀ v, ((Finset.range T).filter fun k => G.max - nth G.call e k = v).card ≤ c := by
      intro v
      refine le_trans (Finset.card_le_card fun k hk => ?_) (hcount (G.max - v))
      simp only [Finset.mem_filter] at hk ⊢
      have := (hG.range (afterCalls G.call k e)).2
      exact ⟨hk.1, by have h2 := hk.2; simp only [nth] at h2 ⊢; omega⟩
    have hlow : (S.card : ℝ) / T ≤ (F t + δ) + 1 / (((G.max - G.min : ℕ) : ℝ) + 1) + 1 / T := by
      refine frac_le hT hc hcount'' (by linarith [(h01 t).1]) fun k hk => ?_
      simp only [hS, Finset.mem_filter, Finset.mem_range] at hk
      obtain ⟨r, hr, hd⟩ := h (afterCalls G.call k e)
      rw [hnth, hr, fin_le] at hk
      refine ⟨hk.1, ?_, ?_⟩
      · have := (hG.range (afterCalls G.call k e)).1
        simp only [nth]; omega
      · have := hF hk.2
        show ((G.max - (G.call (afterCalls G.call k e)).1 : ℕ) : ℝ) ≤ _
        rw [← pos_mul' hG]
        exact mul_le_mul_of_nonneg_right (by linarith [(abs_le.1 hd).1]) (Nat.cast_nonneg _)
    have hhigh : (S'.card : ℝ) / T ≤ (1 - F t + δ) + 1 / (((G.max - G.min : ℕ) : ℝ) + 1) + 1 / T := by
      refine frac_le hT hc hcount' (by linarith [(h01 t).2]) fun k hk => ?_
      simp only [hS', Finset.mem_filter, Finset.mem_range] at hk
      obtain ⟨r, hr, hd⟩ := h (afterCalls G.call k e)
      rw [hnth, hr, fin_le, not_le] at hk
      refine ⟨hk.1, ?_, ?_⟩
      · have := (hG.range (afterCalls G.call k e)).2
        simp only [nth]; omega
      · have := hF hk.2.le
        show (((G.call (afterCalls G.call k e)).1 - G.min : ℕ) : ℝ) ≤ _
        rw [← pos_mul hG]
        exact mul_le_mul_of_nonneg_right (by linarith [(abs_le.1 hd).2]) (Nat.cast_nonneg _)
    rw [hm] at hlow hhigh
    exact abs_le.2 ⟨by linarith, by linarith⟩

end Trng.PeriodLaw
