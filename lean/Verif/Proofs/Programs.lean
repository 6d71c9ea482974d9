import Verif.Model.Programs
import Verif.Spec.Engine
import Verif.Proofs.Float
import Mathlib.Tactic.FieldSimp
/-! Lemmas for C107. -/
namespace Trng.Programs
open Spec FP Uniform Discrete

variable {σ : Type}

/-- How often `i` is among the first `n` values. -/
def hits (draw : σ → Option ℤ × σ) (r : σ) (n i : Nat) : Nat :=
  (List.range n).countP fun k => decide (nth draw r k = some (i : ℤ))

theorem hits_succ (draw : σ → Option ℤ × σ) (r : σ) (n i : Nat) :
    hits draw r (n + 1) i = hits draw (draw r).2 n i + if (draw r).1 = some (i : ℤ) then 1 else 0 := by
  unfold hits
  rw [List.range_succ_eq_map, List.countP_cons, List.countP_map]
  congr 1
  by_cases h : (draw r).1 = some (i : ℤ) <;> simp [nth, afterCalls, h]

theorem int_of {x : ℤ} (h0 : 0 ≤ x) (h1 : x < 2 ^ 31) : Examples.int x = some x := by
  unfold Examples.int; rw [if_pos ⟨by omega, h1⟩]

theorem countLoop_eq (draw : σ → Option ℤ × σ) {N : Nat} (h : ∀ s, ∃ k : Nat, k < N ∧ (draw s).1 = some (k : ℤ)) :
    ∀ (n : Nat) (r : σ) (f : Nat → ℤ), (∀ i, 0 ≤ f i ∧ f i + n < 2 ^ 31) →
    countLoop draw n r ((List.range N).map f) = some ((List.range N).map fun i => f i + (hits draw r n i : ℕ)) := by
  intro n
  induction n with
  | zero => intro r f _; simp [countLoop, hits]
  | succ n ih =>
    intro r f hf
    obtain ⟨k, hk, hd⟩ := h r
    have h1 : ((List.range N).map f)[k]? = some (f k) := by simp [hk]
    have h2 : ((List.range N).map f).set k (f k + 1) =
        (List.range N).map fun i => if i = k then f k + 1 else f i := by
      apply List.ext_getElem
      · simp
      · intro i a b
        rw [List.getElem_set]
        simp only [List.getElem_map, List.getElem_range]
        by_cases hik : k = i
        · rw [if_pos hik, if_pos hik.symm]
        · rw [if_neg hik, if_neg (Ne.symm hik)]
    rw [countLoop, hd]
    simp only [Option.bind_eq_bind, Option.bind_some, Int.toNat_natCast]
    rw [if_neg (by omega), h1]
    simp only [Option.bind_some]
    rw [int_of (by have := hf k; omega) (by have := hf k; push_cast at this; omega)]
    simp only [Option.bind_some]
    rw [h2, ih _ _ (fun i => by have := hf i; have := hf k; push_cast at *; split_ifs <;> omega)]
    congr 1
    apply List.map_congr_left
    intro i _
    rw [hits_succ, hd]
    by_cases hik : i = k
    · subst hik; simp; ring
    · rw [if_neg hik, if_neg (by simpa using Ne.symm hik)]; simp

theorem sum_indicator (k : Nat) : ∀ N : Nat,
    ((List.range N).map fun i => if i = k then 1 else 0).sum = if k < N then 1 else 0
  | 0 => by simp
  | N + 1 => by
    rw [List.range_succ, List.map_append, List.sum_append, sum_indicator k N]
    simp only [List.map_cons, List.map_nil, List.sum_cons, List.sum_nil]
    split_ifs <;> omega

theorem sum_hits (draw : σ → Option ℤ × σ) {N : Nat} (h : ∀ s, ∃ k : Nat, k < N ∧ (draw s).1 = some (k : ℤ)) :
    ∀ (n : Nat) (r : σ), ((List.range N).map fun i => hits draw r n i).sum = n := by
  intro n
  induction n with
  | zero => intro r; simp [hits]
  | succ n ih =>
    intro r
    obtain ⟨k, hk, hd⟩ := h r
    simp only [hits_succ, hd]
    rw [List.sum_map_add, ih]
    congr 1
    have : ∀ i : Nat, (if some (k : ℤ) = some (i : ℤ) then 1 else 0) = if i = k then 1 else 0 := fun i => by
      simp [eq_comm]
    simp only [this]
    rw [sum_indicator, if_pos hk]

theorem mean_id (n : ℚ) (v : List ℚ) : mean id n v = v.sum / n := by
  have : ∀ (v : List ℚ) (c : ℚ), v.foldl (fun m x => id (m + id (x / n))) c = c + v.sum / n := by
    intro v
    induction v with
    | nil => intro c; simp
    | cons a v ih => intro c; rw [List.foldl_cons, ih, List.sum_cons]; simp only [id]; ring
  rw [mean, this, zero_add]

theorem cov_id (n a b : ℚ) : ∀ (l : List (ℚ × ℚ)) (c : ℚ),
    l.foldl (fun c x => id (c + id (id (id (x.1 - a) * id (x.2 - b)) / n))) c =
      c + (l.map fun x => (x.1 - a) * (x.2 - b)).sum / n
  | [], c => by simp
  | x :: l, c => by rw [List.foldl_cons, cov_id, List.map_cons, List.sum_cons]; simp only [id]; ring

theorem cov_swap (rnd : ℚ → ℚ) (n a b : ℚ) : ∀ (v1 v2 : List ℚ) (c : ℚ),
    (v1.zip v2).foldl (fun c x => rnd (c + rnd (rnd (rnd (x.1 - a) * rnd (x.2 - b)) / n))) c =
      (v2.zip v1).foldl (fun c x => rnd (c + rnd (rnd (rnd (x.1 - b) * rnd (x.2 - a)) / n))) c
  | [], v2, c => by simp
  | x :: v1, [], c => by simp
  | x :: v1, y :: v2, c => by
    rw [List.zip_cons_cons, List.zip_cons_cons, List.foldl_cons, List.foldl_cons, cov_swap rnd n a b v1 v2]
    rw [mul_comm (rnd (x - a))]

theorem cov_nonneg {F : Fmt} (hF : Nearest F) {n : ℚ} (hn : 0 ≤ n) (a : ℚ) : ∀ (v : List ℚ) (c : ℚ), 0 ≤ c →
    0 ≤ (v.zip v).foldl (fun c x => F.rnd (c + F.rnd (F.rnd (F.rnd (x.1 - a) * F.rnd (x.2 - a)) / n))) c
  | [], c, h => by simpa using h
  | x :: v, c, h => by
    rw [List.zip_cons_cons, List.foldl_cons]
    apply cov_nonneg hF hn a v
    exact hF.nonneg (add_nonneg h (hF.nonneg (div_nonneg (hF.nonneg (mul_self_nonneg _)) hn)))

theorem generate_eq (draw : σ → Option ℤ × σ) (h : ∀ s, ∃ k, (draw s).1 = some k) : ∀ (n : Nat) (R : σ),
    generate draw n R = some ((List.range n).map (fun k => (nth draw R k).getD 0), afterCalls draw n R) := by
  intro n
  induction n with
  | zero => intro R; rfl
  | succ n ih =>
    intro R
    obtain ⟨k, hk⟩ := h R
    rw [generate, hk, ih]
    simp only [Option.bind_eq_bind, Option.bind_some]
    rw [List.range_succ_eq_map, List.map_cons, List.map_map]
    simp [nth, afterCalls, hk, Function.comp_def]

theorem timePlain_eq (call : σ → ℤ × σ) : ∀ (n : Nat) (r : σ) (s : ℤ), (∀ k : Nat, 0 ≤ nth call r k) → 0 ≤ s → s < 2 ^ 31 →
    timePlain call n r s = if s + ((List.range n).map (nth call r)).sum < 2 ^ 31 then
      some (s + ((List.range n).map (nth call r)).sum) else none := by
  intro n
  induction n with
  | zero => intro r s _ _ h1; simp [timePlain]; omega
  | succ n ih =>
    intro r s h h0 h1
    have e1 : ((List.range (n + 1)).map (nth call r)).sum =
        (call r).1 + ((List.range n).map (nth call (call r).2)).sum := by
      rw [List.range_succ_eq_map, List.map_cons, List.sum_cons, List.map_map]
      rfl
    have h2 : 0 ≤ (call r).1 := h 0
    have h3 : 0 ≤ ((List.range n).map (nth call (call r).2)).sum := by
      apply List.sum_nonneg
      intro x hx
      obtain ⟨k, -, rfl⟩ := List.mem_map.1 hx
      exact h (k + 1)
    rw [e1, timePlain, ← add_assoc]
    by_cases hlt : s + (call r).1 < 2 ^ 31
    · rw [int_of (by omega) hlt]
      simp only [Option.bind_eq_bind, Option.bind_some]
      exact ih _ _ (fun k => h (k + 1)) (by omega) hlt
    · rw [if_neg (by omega), Examples.int, if_neg (by omega)]
      rfl

theorem timePlain_add (call : σ → ℤ × σ) (m : Nat) : ∀ (n : Nat) (r : σ) (s : ℤ), timePlain call n r s = none →
    timePlain call (n + m) r s = none
  | 0, r, s, h => by simp [timePlain] at h
  | n + 1, r, s, h => by
    rw [show n + 1 + m = n + m + 1 by ring, timePlain]
    rw [timePlain] at h
    cases hi : Examples.int (s + (call r).1) with
    | none => rfl
    | some v =>
      rw [hi] at h
      exact timePlain_add call m n _ _ h

end Trng.Programs
