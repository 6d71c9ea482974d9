import Verif.Spec.LeapfrogUniform
import Verif.Proofs.PeriodEngines
import Mathlib.Data.Nat.ModEq
import Mathlib.Data.Nat.GCD.Basic
import Mathlib.Algebra.Order.BigOperators.Group.Finset

/-! Taking every s-th call of an engine keeps the uniformity over a period if s and the period are coprime. -/
namespace Trng.LeapfrogUniform
open Spec Trng.Uniform Classical

variable {σ : Type} {G : Gen σ} {e e' : σ} {T s n : ℕ}

theorem nth_mod {α : Type} {call : σ → α × σ} (h : ∀ k, nth call e (k + T) = nth call e k) (k : ℕ) : nth call e k = nth call e (k % T) := by
  have : ∀ q r, nth call e (r + T * q) = nth call e r := by
    intro q
    induction q with
    | zero => intro r; rfl
    | succ q ih => intro r; rw [show r + T * (q + 1) = r + T * q + T by ring, h, ih]
  conv_lhs => rw [← Nat.mod_add_div k T]
  exact this _ _

theorem nth_period {α : Type} {call : σ → α × σ} (h : afterCalls call T e = e) (k : ℕ) : nth call e (k + T) = nth call e k := by
  rw [nth, nth, afterCalls_add, h]

/-- The calls of a leapfrog stream over a period are the calls of the engine over a period, in another order. -/
theorem leapfrog_equi (hE : Equidistributed G e T) (hp : ∀ k, nth G.call e (k + T) = nth G.call e k) (hs : Nat.Coprime s T)
    (hl : Leapfrog G.call e e' s n) : Equidistributed G e' T := by
  obtain ⟨hT, c, hc, hv⟩ := hE
  refine ⟨hT, c, hc, fun v => le_trans ?_ (hv v)⟩
  refine Finset.card_le_card_of_injOn (fun k => (k * s + n) % T) ?_ ?_
  · intro k hk
    rw [Finset.mem_coe, Finset.mem_filter] at hk ⊢
    exact ⟨Finset.mem_range.2 (Nat.mod_lt _ hT), by rw [← nth_mod hp, ← hl]; exact hk.2⟩
  · intro i hi j hj hij
    rw [Finset.mem_coe, Finset.mem_filter, Finset.mem_range] at hi hj
    have h1 : i * s + n ≡ j * s + n [MOD T] := hij
    have h2 : i * s ≡ j * s [MOD T] := Nat.ModEq.add_right_cancel' n h1
    have h3 : i ≡ j [MOD T] := Nat.ModEq.cancel_right_of_coprime (Nat.coprime_comm.1 hs) h2
    rwa [Nat.ModEq, Nat.mod_eq_of_lt hi.1, Nat.mod_eq_of_lt hj.1] at h3

/-- `sT` calls one after the other are s periods. -/
theorem count_periods {f : ℕ → ℕ} (hp : ∀ k, f (k + T) = f k) (v : ℕ) (s : ℕ) :
    ((Finset.range (s * T)).filter fun j => f j = v).card = s * ((Finset.range T).filter fun j => f j = v).card := by
  induction s with
  | zero => simp
  | succ s ih =>
    have hper : ∀ q r, f (r + q * T) = f r := by
      intro q
      induction q with
      | zero => intro r; simp
      | succ q ihq => intro r; rw [show r + (q + 1) * T = r + q * T + T by ring, hp, ihq]
    rw [Nat.succ_mul, Nat.succ_mul, ← ih, Finset.card_filter, Finset.card_filter, Finset.card_filter, Finset.sum_range_add]
    congr 1
    refine Finset.sum_congr rfl fun k _ => ?_
    rw [Nat.add_comm, hper]

/-- The calls of all the streams of a leapfrog are the calls of the engine. -/
theorem count_streams (f : ℕ → ℕ) (v s T : ℕ) :
    ∑ n ∈ Finset.range s, ((Finset.range T).filter fun k => f (k * s + n) = v).card = ((Finset.range (s * T)).filter fun j => f j = v).card := by
  induction T with
  | zero => simp
  | succ T ih =>
    have : ∀ n, ((Finset.range (T + 1)).filter fun k => f (k * s + n) = v).card =
        ((Finset.range T).filter fun k => f (k * s + n) = v).card + if f (T * s + n) = v then 1 else 0 := by
      intro n
      rw [Finset.card_filter, Finset.card_filter, Finset.sum_range_succ]
    simp only [this]
    rw [Finset.sum_add_distrib, ih, Nat.mul_succ, Finset.card_filter, Finset.card_filter, Finset.sum_range_add, Nat.mul_comm T s]

theorem leapfrog_pooled (hE : Equidistributed G e T) (hp : ∀ k, nth G.call e (k + T) = nth G.call e k) {E : ℕ → σ}
    (hl : ∀ n, n < s → Leapfrog G.call e (E n) s n) : PooledEquidistributed G E s T := by
  obtain ⟨hT, c, hc, hv⟩ := hE
  refine ⟨hT, c, hc, fun v => ?_⟩
  have h1 : ∑ n ∈ Finset.range s, ((Finset.range T).filter fun k => nth G.call (E n) k = v).card =
      ∑ n ∈ Finset.range s, ((Finset.range T).filter fun k => nth G.call e (k * s + n) = v).card := by
    refine Finset.sum_congr rfl fun n hn => ?_
    have := hl n (Finset.mem_range.1 hn)
    congr 1
    refine Finset.filter_congr fun k _ => ?_
    rw [this k]
  rw [h1, count_streams (fun j => nth G.call e j), count_periods hp]
  exact Nat.mul_le_mul_left _ (hv v)

/-- An engine with fewer values than half of its range does not return them all equally often. -/
theorem not_equi {V : Finset ℕ} (hV : ∀ k, nth G.call e k ∈ V) (h2 : 2 * V.card ≤ G.max - G.min + 1) (hV1 : 2 ≤ V.card) (T : ℕ) :
    ¬ Equidistributed G e T := by
  rintro ⟨hT, c, hc, hv⟩
  have h1 : T ≤ V.card * c := by
    have := Finset.card_le_mul_card_image_of_maps_to (s := Finset.range T) (t := V) (f := fun k => nth G.call e k)
      (fun k _ => hV k) c (fun v _ => hv v)
    rw [Finset.card_range, Nat.mul_comm] at this
    exact this
  have h3 : 2 * V.card * c ≤ T + 1 := le_trans (by rw [Nat.mul_comm]; exact Nat.mul_le_mul_left _ h2) hc
  rcases Nat.eq_zero_or_pos c with h | h
  · subst h; omega
  · nlinarith

/-- The period of a leapfrog stream of an engine whose values do not recur within its period. -/
theorem leapfrog_period {α : Type} {call : σ → α × σ} (hT : 0 < T) (hp : ∀ k, nth call e (k + T) = nth call e k)
    (hinj : ∀ i j, i < T → j < T → nth call e i = nth call e j → i = j) (hl : Leapfrog call e e' s n) :
    ExactOutputPeriod call e' (T / Nat.gcd T s) := by
  have hiff : ∀ i j, nth call e i = nth call e j ↔ i ≡ j [MOD T] := by
    intro i j
    rw [nth_mod hp i, nth_mod hp j]
    exact ⟨fun h => hinj _ _ (Nat.mod_lt _ hT) (Nat.mod_lt _ hT) h, fun h => congrArg _ h⟩
  have hg : 0 < Nat.gcd T s := Nat.gcd_pos_of_pos_left _ hT
  have hpos : 0 < T / Nat.gcd T s := Nat.div_pos (Nat.le_of_dvd hT (Nat.gcd_dvd_left _ _)) hg
  have hk : ∀ k t, nth call e' (k + t) = nth call e' k ↔ T / Nat.gcd T s ∣ t := by
    intro k t
    rw [hl, hl, hiff]
    constructor
    · intro h
      have h : k * s + n + t * s ≡ k * s + n + 0 [MOD T] := by
        rw [show k * s + n + t * s = (k + t) * s + n by ring]; exact h
      have h := Nat.modEq_zero_iff_dvd.1 (Nat.ModEq.add_left_cancel' _ h)
      have hco := Nat.coprime_div_gcd_div_gcd (m := T) (n := s) hg
      refine hco.dvd_of_dvd_mul_right ?_
      have : Nat.gcd T s * (T / Nat.gcd T s) ∣ Nat.gcd T s * (t * (s / Nat.gcd T s)) := by
        rw [Nat.mul_div_cancel' (Nat.gcd_dvd_left _ _), Nat.mul_left_comm, Nat.mul_div_cancel' (Nat.gcd_dvd_right _ _)]
        exact h
      exact Nat.dvd_of_mul_dvd_mul_left hg this
    · rintro ⟨q, rfl⟩
      have hd : T ∣ (T / Nat.gcd T s * q) * s := by
        obtain ⟨a, ha⟩ := Nat.gcd_dvd_right T s
        have hb := Nat.div_mul_cancel (Nat.gcd_dvd_left T s)
        refine ⟨q * a, ?_⟩
        generalize T / Nat.gcd T s = b at hb ⊢
        generalize Nat.gcd T s = g at ha hb
        rw [ha, ← hb]
        ring
      have h0 := (Nat.modEq_zero_iff_dvd.2 hd).add_left (k * s + n)
      rw [show (k + T / Nat.gcd T s * q) * s + n = k * s + n + (T / Nat.gcd T s * q) * s by ring]
      exact h0
  refine ⟨hpos, fun k => (hk k _).2 dvd_rfl, fun t h0 ht => ⟨0, fun h => ?_⟩⟩
  exact absurd (Nat.le_of_dvd h0 ((hk 0 t).1 h)) (by omega)

end Trng.LeapfrogUniform
