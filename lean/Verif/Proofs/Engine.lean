import Verif.Spec.Engine
import Mathlib.Logic.Function.Iterate
import Mathlib.Algebra.Group.Nat.Defs
import Mathlib.Tactic.Ring
import Mathlib.Tactic.Positivity
import Mathlib.Data.Int.GCD
import Mathlib.Data.Nat.Prime.Basic
/- Lemmas about the specification vocabulary of `Verif/Spec/Engine.lean`. -/
theorem List.mapM_option_eq_some_map {α β : Type} (f : α → Option β) (g : α → β) (l : List α)
    (h : ∀ a ∈ l, f a = some (g a)) : l.mapM f = some (l.map g) := by
  induction l with
  | nil => rfl
  | cons a l ih =>
    rw [List.mapM_cons, h a (by simp), ih (fun b hb => h b (by simp [hb]))]
    rfl

namespace Trng.Spec

variable {σ α : Type}

theorem afterCalls_eq_iterate (call : σ → α × σ) (n : Nat) (e : σ) :
    afterCalls call n e = (fun e => (call e).2)^[n] e := by
  induction n generalizing e with
  | zero => rfl
  | succ n ih => rw [afterCalls, ih, Function.iterate_succ_apply]

theorem afterCalls_add (call : σ → α × σ) (m n : Nat) (e : σ) :
    afterCalls call (m + n) e = afterCalls call m (afterCalls call n e) := by
  simp only [afterCalls_eq_iterate, Function.iterate_add_apply]

theorem afterCalls_succ' (call : σ → α × σ) (n : Nat) (e : σ) :
    afterCalls call (n + 1) e = (call (afterCalls call n e)).2 := by
  simp only [afterCalls_eq_iterate, Function.iterate_succ_apply']

theorem nth_afterCalls (call : σ → α × σ) (n k : Nat) (e : σ) :
    nth call (afterCalls call n e) k = nth call e (k + n) := by
  rw [nth, nth, afterCalls_add]

theorem length_firstOutputs (call : σ → α × σ) (n : Nat) (e : σ) :
    (firstOutputs call n e).length = n := by
  induction n generalizing e with
  | zero => rfl
  | succ n ih => simp [firstOutputs, ih]

theorem getElem?_firstOutputs (call : σ → α × σ) (n k : Nat) (e : σ) (h : k < n) :
    (firstOutputs call n e)[k]? = some (nth call e k) := by
  induction n generalizing e k with
  | zero => omega
  | succ n ih =>
    cases k with
    | zero => simp [firstOutputs, nth, afterCalls]
    | succ k =>
      simp only [firstOutputs, List.getElem?_cons_succ]
      rw [ih _ _ (by omega)]
      simp [nth, afterCalls]

theorem firstOutputs_add (call : σ → α × σ) (m n : Nat) (e : σ) :
    firstOutputs call (m + n) e =
      firstOutputs call m e ++ firstOutputs call n (afterCalls call m e) := by
  induction m generalizing e with
  | zero => simp [firstOutputs, afterCalls]
  | succ m ih =>
    rw [Nat.add_right_comm, firstOutputs, ih]
    simp [firstOutputs, afterCalls]

/-- Consecutive blocks make up the sequence. -/
theorem firstOutputs_blocks (call : σ → α × σ) (p b : Nat) (e : σ) (f : Nat → σ)
    (hf : ∀ rank, rank < p → f rank = afterCalls call (rank * b) e) :
    ((List.range p).map fun rank => firstOutputs call b (f rank)).flatten = firstOutputs call (p * b) e := by
  induction p with
  | zero => simp [firstOutputs]
  | succ p ih =>
    rw [List.range_succ, List.map_append, List.flatten_append, ih fun r hr => hf r (by omega), Nat.succ_mul,
      firstOutputs_add]
    simp [hf p (by omega)]

theorem Leapfrog.comp {call : σ → α × σ} {e e' e'' : σ} {s n s' n' : Nat}
    (h : Leapfrog call e e' s n) (h' : Leapfrog call e' e'' s' n') :
    Leapfrog call e e'' (s * s') (n' * s + n) := by
  intro k
  rw [h' k, h (k * s' + n')]
  congr 1
  ring

/-- A period: iterating returns to the start exactly at the multiples of the exact period. -/
theorem ExactPeriod.afterCalls_eq_self_iff {call : σ → α × σ} {e : σ} {T : Nat}
    (h : ExactPeriod call e T) (n : Nat) : afterCalls call n e = e ↔ T ∣ n := by
  obtain ⟨hT, hret, hmin⟩ := h
  have hmul : ∀ q, afterCalls call (q * T) e = e := by
    intro q
    induction q with
    | zero => simp [afterCalls]
    | succ q ih => rw [Nat.succ_mul, afterCalls_add, hret, ih]
  constructor
  · intro hn
    by_contra hd
    have hlt : n % T < T := Nat.mod_lt _ hT
    have hpos : 0 < n % T := Nat.pos_of_ne_zero (fun h0 => hd (Nat.dvd_of_mod_eq_zero h0))
    apply hmin _ hpos hlt
    have : n = n % T + (n / T) * T := by
      rw [Nat.mul_comm]; exact (Nat.mod_add_div n T).symm
    rw [this, afterCalls_add, hmul] at hn
    exact hn
  · rintro ⟨q, rfl⟩
    rw [Nat.mul_comm]; exact hmul q

/-- If the period divides a power of two and half of it is not a period, it is exact. -/
theorem exactOutputPeriod_two_pow {call : σ → α × σ} {e : σ} {w : Nat}
    (h1 : ∀ k, nth call e (k + 2 ^ (w + 1)) = nth call e k)
    (h2 : ∃ k, nth call e (k + 2 ^ w) ≠ nth call e k) :
    ExactOutputPeriod call e (2 ^ (w + 1)) := by
  refine ⟨by positivity, h1, fun t ht hlt => ?_⟩
  by_contra hc
  push Not at hc
  -- all multiples of t and of 2^(w+1) are periods
  have hmul : ∀ d, (∀ k, nth call e (k + d) = nth call e k) → ∀ j k,
      nth call e (k + d * j) = nth call e k := by
    intro d hd j
    induction j with
    | zero => intro k; simp
    | succ j ih => intro k; rw [Nat.mul_succ, ← Nat.add_assoc, hd, ih]
  -- the gcd divides 2^w
  obtain ⟨j, hj, hg⟩ := (Nat.dvd_prime_pow Nat.prime_two).1 (Nat.gcd_dvd_right t (2 ^ (w + 1)))
  have hjw : j ≤ w := by
    by_contra hcon
    have : j = w + 1 := by omega
    rw [this] at hg
    have := Nat.le_of_dvd ht (hg ▸ Nat.gcd_dvd_left t (2 ^ (w + 1)))
    omega
  have hg' : ∃ a b, t * a = 2 ^ (w + 1) * b + 2 ^ w := by
    have hd : t.gcd (2 ^ (w + 1)) ∣ 2 ^ w := hg ▸ pow_dvd_pow 2 hjw
    obtain ⟨a, ha⟩ := (Nat.exists_mul_mod_eq_gcd (n := t) (k := 2 ^ (w + 1)) (by
      rw [hg]; exact Nat.pow_lt_pow_right (by omega) (by omega)))
    obtain ⟨c, hc⟩ := hd
    refine ⟨a * c, (t * a / 2 ^ (w + 1)) * c, ?_⟩
    have := Nat.div_add_mod (t * a) (2 ^ (w + 1))
    rw [ha.2] at this
    calc t * (a * c) = (t * a) * c := by ring
      _ = (2 ^ (w + 1) * (t * a / 2 ^ (w + 1)) + t.gcd (2 ^ (w + 1))) * c := by rw [this]
      _ = _ := by rw [Nat.add_mul, ← hc]; ring
  obtain ⟨a, b, hab⟩ := hg'
  obtain ⟨k, hk⟩ := h2
  apply hk
  have e1 := hmul t hc a k
  rw [hab, Nat.add_comm (2 ^ (w + 1) * b), ← Nat.add_assoc, hmul _ h1] at e1
  exact e1

end Trng.Spec
