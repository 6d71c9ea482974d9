import Mathlib.Algebra.BigOperators.Ring.Finset
import Mathlib.Algebra.BigOperators.Intervals
import Mathlib.Algebra.Field.Basic
import Mathlib.Tactic.Ring
import Mathlib.Tactic.LinearCombination

/-! Linear recurring sequences over a field: minimal recurrence of a purely periodic sequence.  Used for
`split` of the mrg and yarn engines (C28). -/
namespace Trng.LinRec

open Finset

variable {F : Type*} [Field F]

/-- `P` satisfies the recurrence of order `k` with coefficients `z`. -/
def Rec (P : ℕ → F) (k : ℕ) (z : ℕ → F) : Prop :=
  ∀ i, P (i + k) = ∑ c ∈ range k, z c * P (i + k - 1 - c)

theorem Rec.lift {P : ℕ → F} {k n : ℕ} {z : ℕ → F} (h : Rec P k z) (hk : k ≤ n)
    (hz : ∀ c, k ≤ c → z c = 0) : Rec P n z := by
  intro i
  have h1 := h (i + n - k)
  rw [show i + n - k + k = i + n by omega] at h1
  rw [h1]
  refine sum_subset (range_subset_range.2 hk) fun c _ hc => ?_
  rw [hz c (by simpa using hc), zero_mul]

/-- A sequence with a recurrence of order `n` that starts with `n` zeros vanishes. -/
theorem Rec.zero {E : ℕ → F} {n : ℕ} {d : ℕ → F} (h : Rec E n d) (h0 : ∀ r, r < n → E r = 0) :
    ∀ i, E i = 0 := by
  intro i
  induction i using Nat.strong_induction_on with
  | _ i ih =>
    by_cases hi : i < n
    · exact h0 i hi
    · have := h (i - n)
      rw [show i - n + n = i by omega] at this
      rw [this]
      refine sum_eq_zero fun c hc => ?_
      rw [mem_range] at hc
      rw [ih _ (by omega), mul_zero]

omit [Field F] in
theorem per_mul {P : ℕ → F} {N : ℕ} (per : ∀ i, P (i + N) = P i) (t i : ℕ) : P (i + t * N) = P i := by
  induction t with
  | zero => simp
  | succ t ih => rw [Nat.succ_mul, ← Nat.add_assoc, per, ih]

/-- A relation of a periodic sequence that holds from some place on holds everywhere. -/
theorem shift_relation {P : ℕ → F} {N : ℕ} (hN : 0 < N) (per : ∀ i, P (i + N) = P i) {k : ℕ}
    {x : ℕ → F} {off : ℕ} (hoff : k ≤ off + 1)
    (h : ∀ i, ∑ c ∈ range k, x c * P (off + i - c) = 0) :
    ∀ i, ∑ c ∈ range k, x c * P (i + k - 1 - c) = 0 := by
  intro i
  have h1 := h (i + k - 1 + off * N - off)
  have hle : off ≤ off * N := Nat.le_mul_of_pos_right _ hN
  rw [← h1]
  refine sum_congr rfl fun c hc => ?_
  rw [mem_range] at hc
  rw [show off + (i + k - 1 + off * N - off) - c = (i + k - 1 - c) + off * N by omega, per_mul per]

/-- The minimal recurrence. -/
theorem exists_minimal {P : ℕ → F} {N n : ℕ} (hN : 0 < N) (per : ∀ i, P (i + N) = P i)
    (hrec : ∃ d, Rec P n d) :
    ∃ k z, k ≤ n ∧ Rec P k z ∧ (0 < k → z (k - 1) ≠ 0) ∧ (∀ c, k ≤ c → z c = 0) ∧
      ∀ k' z', k' < k → ¬ Rec P k' z' := by
  classical
  have hex : ∃ k, ∃ d, Rec P k d := ⟨n, hrec⟩
  obtain ⟨z, hz⟩ := Nat.find_spec hex
  set k := Nat.find hex with hk
  have hmin : ∀ k' z', k' < k → ¬ Rec P k' z' := fun k' z' hlt h => Nat.find_min hex hlt ⟨z', h⟩
  refine ⟨k, fun c => if c < k then z c else 0, Nat.find_min' hex hrec, ?_, ?_, ?_, hmin⟩
  · intro i
    rw [hz i]
    refine sum_congr rfl fun c hc => ?_
    dsimp only
    rw [if_pos (mem_range.1 hc)]
  · intro hpos h0
    dsimp only at h0
    rw [if_pos (by omega)] at h0
    refine hmin (k - 1) z (by omega) fun i => ?_
    have h1 := hz (i + N - 1)
    obtain ⟨k', hk'⟩ : ∃ k', k = k' + 1 := ⟨k - 1, by omega⟩
    rw [hk'] at h0 h1 ⊢
    simp only [Nat.add_sub_cancel] at h0 ⊢
    rw [sum_range_succ, h0, zero_mul, add_zero, show i + N - 1 + (k' + 1) = i + k' + N by omega, per] at h1
    rw [h1]
    refine sum_congr rfl fun c hc => ?_
    rw [mem_range] at hc
    rw [show i + k' + N - 1 - c = i + k' - 1 - c + N by omega, per]
  · intro c hc
    dsimp only
    rw [if_neg (by omega)]

/-- The windows of length `k` of a sequence with minimal recurrence order `k` are independent. -/
theorem independent {P : ℕ → F} {N n k : ℕ} (hN : 0 < N) (per : ∀ i, P (i + N) = P i)
    {d : ℕ → F} (hrec : Rec P n d) (hk : k ≤ n) (hmin : ∀ k' z', k' < k → ¬ Rec P k' z')
    {x : ℕ → F} {off : ℕ} (hoff : n ≤ off + 1)
    (h : ∀ r, r < n → ∑ c ∈ range k, x c * P (off + r - c) = 0) : ∀ c, c < k → x c = 0 := by
  -- the relation holds everywhere
  have hE : Rec (fun i => ∑ c ∈ range k, x c * P (off + i - c)) n d := by
    intro i
    have e : ∀ c ∈ range k, x c * P (off + (i + n) - c) =
        ∑ b ∈ range n, d b * (x c * P (off + (i + n - 1 - b) - c)) := by
      intro c hc
      rw [mem_range] at hc
      have h1 := hrec (off + i - c)
      rw [show off + i - c + n = off + (i + n) - c by omega] at h1
      rw [h1, mul_sum]
      refine sum_congr rfl fun b hb => ?_
      rw [mem_range] at hb
      rw [show off + (i + n - 1 - b) - c = off + (i + n) - c - 1 - b by omega]
      ring
    dsimp only
    rw [sum_congr rfl e, sum_comm]
    exact sum_congr rfl fun b _ => by rw [mul_sum]
  have h0 : ∀ i, ∑ c ∈ range k, x c * P (off + i - c) = 0 := hE.zero h
  have h1 := shift_relation hN per (by omega) h0
  -- the first non-zero coefficient gives a shorter recurrence
  by_contra hne
  push Not at hne
  have hex : ∃ c, c < k ∧ x c ≠ 0 := hne
  classical
  obtain ⟨hl, hxl⟩ := Nat.find_spec hex
  set l := Nat.find hex
  have hlow : ∀ c, c < l → x c = 0 := fun c hc => by
    by_contra hx
    exact Nat.find_min hex hc ⟨by omega, hx⟩
  refine hmin (k - 1 - l) (fun c => -(x l)⁻¹ * x (c + l + 1)) (by omega) fun i => ?_
  have h2 := h1 i
  obtain ⟨w, hw⟩ : ∃ w, k = l + (w + 1) := ⟨k - 1 - l, by omega⟩
  rw [hw, sum_range_add, sum_eq_zero (fun c hc => by rw [hlow c (mem_range.1 hc), zero_mul]), zero_add,
    sum_range_succ'] at h2
  rw [show k - 1 - l = w by omega]
  rw [show i + (l + (w + 1)) - 1 - (l + 0) = i + w by omega, Nat.add_zero] at h2
  have h3 : x l * P (i + w) = -∑ c ∈ range w, x (l + (c + 1)) * P (i + (l + (w + 1)) - 1 - (l + (c + 1))) := by
    linear_combination h2
  have h4 : P (i + w) = (x l)⁻¹ * (x l * P (i + w)) := by rw [← mul_assoc, inv_mul_cancel₀ hxl, one_mul]
  rw [h4, h3, ← sum_neg_distrib, mul_sum]
  refine sum_congr rfl fun c hc => ?_
  rw [show l + (c + 1) = c + l + 1 by omega, show i + (l + (w + 1)) - 1 - (c + l + 1) = i + w - 1 - c by omega]
  ring

end Trng.LinRec
