import Verif.Spec.Independence
import Verif.Proofs.PeriodEngines
import Verif.Proofs.PeriodDeviate
import Verif.Proofs.PeriodDiscrete
import Verif.Props.XoshiroTriples
import Verif.Model.PeriodDiscrete
import Mathlib.Data.Fintype.BigOperators
import Mathlib.Algebra.Order.BigOperators.Ring.Finset

/-! Successive samples are independent over a period if the tuples of successive numbers of the engine are equally frequent. -/
namespace Trng.Independence
open XR FP Spec Trng.Uniform PeriodLaw Classical

variable {σ α : Type} {G : Gen σ} {e : σ} {T d : ℕ}

/-! ### Counting -/

theorem count_tuples {N c : ℕ} {y : Fin d → ℕ → ℕ} (hN : 0 < N) (hy : ∀ i k, y i k < N) (hT : 0 < T) (hc : c * N ^ d ≤ T + 1)
    (h : ∀ v : Fin d → ℕ, ((Finset.range T).filter fun k => ∀ i : Fin d, y i k = v i).card ≤ c) (B : Fin d → Finset ℕ)
    (hB : ∀ i, B i ⊆ Finset.range N) :
    |(((Finset.range T).filter fun k => ∀ i : Fin d, y i k ∈ B i).card : ℝ) / T - ∏ i, ((B i).card : ℝ) / N| ≤ 1 / T := by
  let f : ℕ → Fin d → ℕ := fun k i => y i k
  have hfib : ∀ (A : Finset ℕ) (_ : A ⊆ Finset.range T) (v : Fin d → ℕ), (A.filter fun k => f k = v).card ≤ c := fun A hA v => by
    refine le_trans (Finset.card_le_card fun k hk => ?_) (h v)
    rw [Finset.mem_filter] at hk ⊢
    exact ⟨hA hk.1, fun i => congrFun hk.2 i⟩
  let W := Fintype.piFinset B
  let U := Fintype.piFinset fun _ : Fin d => Finset.range N
  have hWU : W ⊆ U := Fintype.piFinset_subset _ _ hB
  have hWc : W.card = ∏ i, (B i).card := Fintype.card_piFinset _
  have hUc : U.card = N ^ d := by
    rw [show U.card = ∏ _i : Fin d, (Finset.range N).card from Fintype.card_piFinset _, Finset.prod_const, Finset.card_range, Finset.card_univ, Fintype.card_fin]
  have h1 := Finset.card_le_mul_card_image_of_maps_to (s := (Finset.range T).filter fun k => ∀ i : Fin d, y i k ∈ B i) (t := W) (f := f)
    (fun k hk => Fintype.mem_piFinset.2 (Finset.mem_filter.1 hk).2) c (fun v _ => hfib _ (Finset.filter_subset _ _) v)
  have h2 := Finset.card_le_mul_card_image_of_maps_to (s := (Finset.range T).filter fun k => ¬ ∀ i : Fin d, y i k ∈ B i) (t := U \ W) (f := f)
    (fun k hk => Finset.mem_sdiff.2 ⟨Fintype.mem_piFinset.2 fun i => Finset.mem_range.2 (hy _ _), fun hw =>
      (Finset.mem_filter.1 hk).2 (Fintype.mem_piFinset.1 hw)⟩) c (fun v _ => hfib _ (Finset.filter_subset _ _) v)
  have h3 := Finset.card_filter_add_card_filter_not (s := Finset.range T) (fun k => ∀ i : Fin d, y i k ∈ B i)
  rw [Finset.card_range] at h3
  rw [Finset.card_sdiff_of_subset hWU, hUc] at h2
  have hWle : W.card ≤ N ^ d := by rw [← hUc]; exact Finset.card_le_card hWU
  have hprod : ∏ i, ((B i).card : ℝ) / N = (W.card : ℝ) / (N : ℝ) ^ d := by
    rw [Finset.prod_div_distrib, Finset.prod_const, Finset.card_univ, Fintype.card_fin, hWc]
    push_cast; rfl
  rw [hprod]
  generalize ((Finset.range T).filter fun k => ∀ i : Fin d, y i k ∈ B i).card = C at *
  generalize ((Finset.range T).filter fun k => ¬ ∀ i : Fin d, y i k ∈ B i).card = C' at *
  generalize W.card = w at *
  have hNd : (0 : ℝ) < (N : ℝ) ^ d := by positivity
  generalize hq : (w : ℝ) / (N : ℝ) ^ d = q
  have hw : (w : ℝ) = q * (N : ℝ) ^ d := by rw [← hq, div_mul_cancel₀ _ hNd.ne']
  have hw1 : (w : ℝ) ≤ (N : ℝ) ^ d := by exact_mod_cast hWle
  have q0 : 0 ≤ q := by rw [← hq]; positivity
  have q1 : q ≤ 1 := by rw [← hq]; exact div_le_one_of_le₀ hw1 hNd.le
  have r1 : (C : ℝ) ≤ c * w := by exact_mod_cast h1
  have r2 : (C' : ℝ) ≤ c * ((N : ℝ) ^ d - w) := by
    have : (C' : ℝ) ≤ ((c * (N ^ d - w) : ℕ) : ℝ) := by exact_mod_cast h2
    rw [Nat.cast_mul, Nat.cast_sub hWle, Nat.cast_pow] at this
    exact this
  have r3 : (C : ℝ) + C' = T := by exact_mod_cast h3
  have r4 : (c : ℝ) * (N : ℝ) ^ d ≤ T + 1 := by exact_mod_cast hc
  have hTr : (0 : ℝ) < T := by exact_mod_cast hT
  have a1 : (C : ℝ) ≤ (T + 1) * q := by
    have : (c : ℝ) * w = (c * (N : ℝ) ^ d) * q := by rw [hw]; ring
    rw [this] at r1
    exact r1.trans (mul_le_mul_of_nonneg_right r4 q0)
  have a2 : (C' : ℝ) ≤ (T + 1) * (1 - q) := by
    have : (c : ℝ) * ((N : ℝ) ^ d - w) = (c * (N : ℝ) ^ d) * (1 - q) := by rw [hw]; ring
    rw [this] at r2
    exact r2.trans (mul_le_mul_of_nonneg_right r4 (by linarith))
  have key : |(C : ℝ) - T * q| ≤ 1 := abs_le.2 ⟨by nlinarith, by nlinarith⟩
  rw [show (C : ℝ) / T - q = (C - T * q) / T by field_simp, abs_div, abs_of_pos hTr]
  exact div_le_div_of_nonneg_right key hTr.le

/-- Products of probabilities. -/
theorem prod_close {ι : Type} (s : Finset ι) (p q : ι → ℝ) {δ : ℝ} (hp : ∀ i, 0 ≤ p i ∧ p i ≤ 1) (hq : ∀ i, 0 ≤ q i ∧ q i ≤ 1) (h : ∀ i, |p i - q i| ≤ δ) :
    |∏ i ∈ s, p i - ∏ i ∈ s, q i| ≤ s.card * δ := by
  induction s using Finset.induction_on with
  | empty => simp
  | insert a s ha ih =>
    rw [Finset.prod_insert ha, Finset.prod_insert ha, Finset.card_insert_of_notMem ha]
    have h1 : 0 ≤ ∏ i ∈ s, p i := Finset.prod_nonneg fun i _ => (hp i).1
    have h2 : ∏ i ∈ s, p i ≤ 1 := Finset.prod_le_one (fun i _ => (hp i).1) fun i _ => (hp i).2
    have e : p a * ∏ i ∈ s, p i - q a * ∏ i ∈ s, q i = (p a - q a) * ∏ i ∈ s, p i + q a * (∏ i ∈ s, p i - ∏ i ∈ s, q i) := by ring
    rw [e]
    refine (abs_add_le _ _).trans ?_
    rw [abs_mul, abs_mul, abs_of_nonneg h1, abs_of_nonneg (hq a).1]
    have a1 : |p a - q a| * ∏ i ∈ s, p i ≤ δ := (mul_le_of_le_one_right (abs_nonneg _) h2).trans (h a)
    have a2 : q a * |∏ i ∈ s, p i - ∏ i ∈ s, q i| ≤ s.card * δ := (mul_le_of_le_one_left (abs_nonneg _) (hq a).2).trans ih
    push_cast
    linarith

/-! ### Sampling functions with a single call -/

/-- A sampling function for all engines which calls the engine once and depends on it through its result and range only. -/
structure OneCall (S : (τ : Type) → Gen τ → τ → α × τ) : Prop where
  state : ∀ (τ : Type) (G : Gen τ), G.Sound → ∀ s, (S τ G s).2 = (G.call s).2
  value : ∀ (τ ρ : Type) (G : Gen τ) (H : Gen ρ), G.Sound → H.Sound → G.min = H.min → G.max = H.max → ∀ s t, (G.call s).1 = (H.call t).1 →
    (S τ G s).1 = (S ρ H t).1

/-- An engine that counts from `lo` to `hi`, and again. -/
def counter (lo hi : ℕ) : Gen ℕ := ⟨fun n => (lo + n % (hi - lo + 1), n + 1), lo, hi⟩

theorem counter_sound (hG : G.Sound) : (counter G.min G.max).Sound :=
  ⟨hG.lt, hG.small, fun s => ⟨Nat.le_add_right _ _, by
    have := Nat.mod_lt s (show 0 < G.max - G.min + 1 by omega)
    have := hG.lt
    show G.min + s % (G.max - G.min + 1) ≤ G.max
    omega⟩⟩

theorem counter_after (lo hi k : ℕ) : ∀ n, afterCalls (counter lo hi).call k n = n + k := by
  induction k with
  | zero => exact fun _ => rfl
  | succ k ih => intro n; rw [show afterCalls (counter lo hi).call (k + 1) n = afterCalls (counter lo hi).call k (n + 1) from rfl, ih]; omega

theorem counter_equi : Equidistributed (counter G.min G.max) 0 (G.max - G.min + 1) := by
  refine ⟨Nat.succ_pos _, 1, by show 1 * (G.max - G.min + 1) ≤ _; omega, fun v => ?_⟩
  rw [Finset.card_le_one]
  intro i hi j hj
  rw [Finset.mem_filter, Finset.mem_range, nth, counter_after] at hi hj
  have h1 : G.min + (0 + i) % (G.max - G.min + 1) = v := hi.2
  have h2 : G.min + (0 + j) % (G.max - G.min + 1) = v := hj.2
  rw [Nat.zero_add, Nat.mod_eq_of_lt hi.1] at h1
  rw [Nat.zero_add, Nat.mod_eq_of_lt hj.1] at h2
  omega

variable {S : (τ : Type) → Gen τ → τ → α × τ}

theorem oneCall_nth (hS : OneCall S) (hG : G.Sound) (k : ℕ) :
    nth (S σ G) e k = (S ℕ (counter G.min G.max) (nth G.call e k - G.min)).1 := by
  have hst : ∀ k e, afterCalls (S σ G) k e = afterCalls G.call k e := by
    intro k
    induction k with
    | zero => exact fun _ => rfl
    | succ k ih =>
      intro e
      show afterCalls (S σ G) k (S σ G e).2 = afterCalls G.call k (G.call e).2
      rw [hS.state σ G hG, ih]
  rw [nth, hst]
  refine hS.value _ _ _ _ hG (counter_sound hG) rfl rfl _ _ ?_
  obtain ⟨h1, h2⟩ := hG.range (afterCalls G.call k e)
  have hlt := hG.lt
  show (G.call (afterCalls G.call k e)).1 = G.min + ((G.call (afterCalls G.call k e)).1 - G.min) % (G.max - G.min + 1)
  rw [Nat.mod_eq_of_lt (by omega)]
  omega

theorem counter_nth (hS : OneCall S) (hG : G.Sound) (k : ℕ) : nth (S ℕ (counter G.min G.max)) 0 k = (S ℕ (counter G.min G.max) k).1 := by
  have hst : ∀ k n, afterCalls (S ℕ (counter G.min G.max)) k n = n + k := by
    intro k
    induction k with
    | zero => exact fun _ => rfl
    | succ k ih =>
      intro n
      show afterCalls (S ℕ (counter G.min G.max)) k (S ℕ (counter G.min G.max) n).2 = _
      rw [hS.state ℕ _ (counter_sound hG), ih]
      show n + 1 + k = n + (k + 1)
      omega
  rw [nth, hst, Nat.zero_add]

theorem joint_core (hS : OneCall S) (hG : G.Sound) {es : Fin d → σ} (hT : StreamsEquidistributed G es T) (A : Fin d → α → Prop) :
    |(((Finset.range T).filter fun k => ∀ i : Fin d, A i (nth (S σ G) (es i) k)).card : ℝ) / T -
      ∏ i, (((Finset.range (G.max - G.min + 1)).filter fun k => A i (nth (S ℕ (counter G.min G.max)) 0 k)).card : ℝ) / (G.max - G.min + 1 : ℕ)| ≤ 1 / T := by
  obtain ⟨h0, c, hc, hv⟩ := hT
  have hr : ∀ i k, G.min ≤ nth G.call (es i) k ∧ nth G.call (es i) k ≤ G.max := fun i k => hG.range _
  have h := count_tuples (y := fun i k => nth G.call (es i) k - G.min) (N := G.max - G.min + 1) (c := c) (d := d) (Nat.succ_pos _) (fun i k => by have := hr i k; omega) h0 hc
    (fun v => le_trans (Finset.card_le_card fun k hk => by
      rw [Finset.mem_filter] at hk ⊢
      exact ⟨hk.1, fun i => by have := hk.2 i; have := hr i k; show _ = G.min + v i; omega⟩) (hv fun i => G.min + v i))
    (fun i => (Finset.range (G.max - G.min + 1)).filter fun k => A i (nth (S ℕ (counter G.min G.max)) 0 k)) (fun i => Finset.filter_subset _ _)
  refine le_trans (le_of_eq ?_) h
  congr 5
  refine Finset.filter_congr fun k _ => forall_congr' fun i => ?_
  rw [oneCall_nth hS hG, Finset.mem_filter, Finset.mem_range, counter_nth hS hG]
  exact ⟨fun h => ⟨by have := hr i k; omega, h⟩, fun h => h.2⟩

theorem frac01 (N : ℕ) (p : ℕ → Prop) : 0 ≤ (((Finset.range N).filter p).card : ℝ) / N ∧ (((Finset.range N).filter p).card : ℝ) / N ≤ 1 := by
  have : ((Finset.range N).filter p).card ≤ N := (Finset.card_filter_le _ _).trans (Finset.card_range N).le
  exact ⟨by positivity, div_le_one_of_le₀ (by exact_mod_cast this) (by positivity)⟩

theorem bound_le (hG : G.Sound) {ε : ℝ} : (d : ℝ) * (ε + 13 / (G.max - G.min : ℝ) + 1 / ((G.max - G.min + 1 : ℕ) : ℝ)) + 1 / T ≤
    d * (ε + 14 / (G.max - G.min : ℝ)) + 1 / T := by
  have hlt := hG.lt
  have h4 : (0 : ℝ) < G.max - G.min := by
    have : (G.min : ℝ) < G.max := by exact_mod_cast hG.lt
    linarith
  have : (1 : ℝ) / ((G.max - G.min + 1 : ℕ) : ℝ) ≤ 1 / (G.max - G.min) := by
    refine one_div_le_one_div_of_le h4 ?_
    rw [Nat.cast_add, Nat.cast_sub hlt.le]
    push_cast
    linarith
  have e : (14 : ℝ) / (G.max - G.min) = 13 / (G.max - G.min) + 1 / (G.max - G.min) := by ring
  have : (d : ℝ) * (ε + 13 / (G.max - G.min : ℝ) + 1 / ((G.max - G.min + 1 : ℕ) : ℝ)) ≤ d * (ε + 14 / (G.max - G.min : ℝ)) :=
    mul_le_mul_of_nonneg_left (by rw [e]; linarith) (Nat.cast_nonneg _)
  linarith

/-- The joint law, from the laws over the numbers of the range. -/
theorem joint_general (hS : OneCall S) (hG : G.Sound) {es : Fin d → σ} (hT : StreamsEquidistributed G es T) (A : Fin d → α → Prop) (F : Fin d → ℝ)
    (h01 : ∀ i, 0 ≤ F i ∧ F i ≤ 1) {δ : ℝ}
    (h : ∀ i, |(((Finset.range (G.max - G.min + 1)).filter fun k => A i (nth (S ℕ (counter G.min G.max)) 0 k)).card : ℝ) / (G.max - G.min + 1 : ℕ) - F i| ≤ δ) :
    |(((Finset.range T).filter fun k => ∀ i : Fin d, A i (nth (S σ G) (es i) k)).card : ℝ) / T - ∏ i, F i| ≤ d * δ + 1 / T := by
  have h1 := joint_core hS hG hT A
  have h2 := prod_close Finset.univ (fun i : Fin d => (((Finset.range (G.max - G.min + 1)).filter fun k =>
      A i (nth (S ℕ (counter G.min G.max)) 0 k)).card : ℝ) / (G.max - G.min + 1 : ℕ)) F (fun i => frac01 _ _) h01 h
  rw [Finset.card_univ, Fintype.card_fin] at h2
  rw [abs_le] at h1 h2 ⊢
  exact ⟨by linarith [h1.1, h2.1], by linarith [h1.2, h2.2]⟩

/-- The joint law of numbers, from the law over the numbers of the range. -/
theorem streams_of {S : (τ : Type) → Gen τ → τ → XR × τ} (hS : OneCall S) (hG : G.Sound) {es : Fin d → σ} (hT : StreamsEquidistributed G es T) {F : ℝ → ℝ}
    (h01 : ∀ t, 0 ≤ F t ∧ F t ≤ 1) {ε : ℝ}
    (h : Equidistributed (counter G.min G.max) 0 (G.max - G.min + 1) →
      FollowsUpTo (S ℕ (counter G.min G.max)) 0 (G.max - G.min + 1) F (ε + 13 / (G.max - G.min : ℝ) + 1 / ((G.max - G.min + 1 : ℕ) : ℝ))) :
    StreamsFollow (S σ G) es T F (d * (ε + 14 / (G.max - G.min : ℝ)) + 1 / T) := by
  have hF := h counter_equi
  refine ⟨fun i k => ?_, fun t => ?_⟩
  · have hr : G.min ≤ nth G.call (es i) k ∧ nth G.call (es i) k ≤ G.max := hG.range _
    rw [oneCall_nth hS hG, ← counter_nth hS hG]
    exact hF.number _ (by omega)
  · exact (joint_general hS hG hT (fun i x => x ≤ fin (t i)) (fun i => F (t i)) (fun i => h01 _) fun i => hF.law (t i)).trans (bound_le hG)

/-- The joint law of integers. -/
theorem integers_streams_of {S : (τ : Type) → Gen τ → τ → Option ℤ × τ} (hS : OneCall S) (hG : G.Sound) {es : Fin d → σ} (hT : StreamsEquidistributed G es T) {lo : ℤ} {p : ℤ → ℝ}
    (hp : ∀ x, 0 ≤ p x) (hp1 : ∀ t, upTo lo p t ≤ 1) {ε : ℝ}
    (h : Equidistributed (counter G.min G.max) 0 (G.max - G.min + 1) →
      IntegersFollow (S ℕ (counter G.min G.max)) 0 (G.max - G.min + 1) lo p (ε + 13 / (G.max - G.min : ℝ) + 1 / ((G.max - G.min + 1 : ℕ) : ℝ))) :
    IntegerStreams (S σ G) es T lo p (d * (ε + 14 / (G.max - G.min : ℝ)) + 1 / T) := by
  have hF := h counter_equi
  have hb := bound_le (d := d) (T := T) hG (ε := ε)
  refine ⟨fun i k => ?_, fun t => ?_, fun v hv => ?_⟩
  · have hr : G.min ≤ nth G.call (es i) k ∧ nth G.call (es i) k ≤ G.max := hG.range _
    rw [oneCall_nth hS hG, ← counter_nth hS hG]
    exact hF.defined _ (by omega)
  · refine le_trans ?_ hb
    refine le_trans (le_of_eq ?_) (joint_general hS hG hT (fun i x => ∃ n, x = some n ∧ n ≤ t i) (fun i => upTo lo p (t i))
      (fun i => ⟨upTo_nonneg hp _, hp1 _⟩) fun i => le_trans (le_of_eq ?_) (hF.atMost (t i)))
    · congr!
    · congr!
  · have hT0 : (0 : ℝ) ≤ 1 / T := by positivity
    refine le_trans ?_ (mul_le_mul_of_nonneg_left hb (by norm_num : (0 : ℝ) ≤ 2))
    have h1 : ∀ i, p (v i) ≤ 1 := fun i => le_trans (Finset.single_le_sum (f := p) (fun x _ => hp x) (Finset.mem_Icc.2 ⟨hv i, le_rfl⟩)) (hp1 (v i))
    refine le_trans (le_trans (le_of_eq ?_) (joint_general hS hG hT (fun i x => x = some (v i)) (fun i => p (v i)) (fun i => ⟨hp _, h1 i⟩)
      fun i => le_trans (le_of_eq ?_) (hF.exactly (v i) (hv i)))) ?_
    · congr!
    · congr!
    · linarith

theorem oneCall_after (hS : OneCall S) (hG : G.Sound) (i k : ℕ) : nth (S σ G) (afterCalls G.call i e) k = nth (S σ G) e (k + i) := by
  have hst : ∀ k e, afterCalls (S σ G) k e = afterCalls G.call k e := fun k e => after_eq (hS.state σ G hG) e k
  rw [nth, nth, hst, hst, afterCalls_add]

theorem tuples_streams : TuplesEquidistributed G e T d ↔ StreamsEquidistributed G (fun i : Fin d => afterCalls G.call i.val e) T := by
  have key : ∀ (k : ℕ) (i : Fin d), nth G.call (afterCalls G.call i.val e) k = nth G.call e (k + i.val) := fun k i => by
    rw [nth, nth, afterCalls_add]
  simp only [TuplesEquidistributed, StreamsEquidistributed, key]

/-- The joint law of successive numbers. -/
theorem joint_of {S : (τ : Type) → Gen τ → τ → XR × τ} (hS : OneCall S) (hG : G.Sound) (hT : TuplesEquidistributed G e T d) {F : ℝ → ℝ}
    (h01 : ∀ t, 0 ≤ F t ∧ F t ≤ 1) {ε : ℝ}
    (h : Equidistributed (counter G.min G.max) 0 (G.max - G.min + 1) →
      FollowsUpTo (S ℕ (counter G.min G.max)) 0 (G.max - G.min + 1) F (ε + 13 / (G.max - G.min : ℝ) + 1 / ((G.max - G.min + 1 : ℕ) : ℝ))) :
    JointlyFollow (S σ G) e T d F (d * (ε + 14 / (G.max - G.min : ℝ)) + 1 / T) := by
  have hJ := streams_of hS hG (tuples_streams.1 hT) h01 h
  refine ⟨fun k => ?_, fun t => ?_⟩
  · obtain ⟨r, hr⟩ := (h counter_equi).number (nth G.call e k - G.min) (by have := hG.range (afterCalls G.call k e); have : nth G.call e k ≤ G.max := this.2; omega)
    rw [counter_nth hS hG] at hr
    exact ⟨r, by rw [oneCall_nth hS hG, hr]⟩
  · have := hJ.law t
    simp only [oneCall_after hS hG] at this
    exact this

/-- The joint law of successive integers. -/
theorem integers_joint_of {S : (τ : Type) → Gen τ → τ → Option ℤ × τ} (hS : OneCall S) (hG : G.Sound) (hT : TuplesEquidistributed G e T d) {lo : ℤ} {p : ℤ → ℝ}
    (hp : ∀ x, 0 ≤ p x) (hp1 : ∀ t, upTo lo p t ≤ 1) {ε : ℝ}
    (h : Equidistributed (counter G.min G.max) 0 (G.max - G.min + 1) →
      IntegersFollow (S ℕ (counter G.min G.max)) 0 (G.max - G.min + 1) lo p (ε + 13 / (G.max - G.min : ℝ) + 1 / ((G.max - G.min + 1 : ℕ) : ℝ))) :
    IntegersJointly (S σ G) e T d lo p (d * (ε + 14 / (G.max - G.min : ℝ)) + 1 / T) := by
  have hJ := integers_streams_of hS hG (tuples_streams.1 hT) hp hp1 h
  refine ⟨fun k => ?_, fun t => ?_, fun v hv => ?_⟩
  · obtain ⟨r, hr, h2⟩ := (h counter_equi).defined (nth G.call e k - G.min) (by have := hG.range (afterCalls G.call k e); have : nth G.call e k ≤ G.max := this.2; omega)
    rw [counter_nth hS hG] at hr
    exact ⟨r, by rw [oneCall_nth hS hG, hr], h2⟩
  · have := hJ.atMost t
    simp only [oneCall_after hS hG] at this
    exact this
  · have := hJ.exactly v hv
    simp only [oneCall_after hS hG] at this
    exact this

/-! ### The deviates -/

theorem deviates {τ ρ : Type} {G : Gen τ} {H : Gen ρ} (hG : G.Sound) (hm : G.min = H.min) (hM : G.max = H.max) {s : τ} {t : ρ}
    (h : (G.call s).1 = (H.call t).1) : (uniformoo float64 G s).1 = (uniformoo float64 H t).1 ∧ (uniformoc float64 G s).1 = (uniformoc float64 H t).1 ∧
      (uniformcc float64 G s).1 = (uniformcc float64 H t).1 ∧ (uniformco float64 G s).1 = (uniformco float64 H t).1 := by
  have hc1 := Traits.callsNeeded_one ⟨float64, 1, G.max - G.min⟩ hG.small (by have := hG.lt; show 0 < G.max - G.min; omega) (show 1 ≤ float64.p by decide) rfl
  have hv : (Traits.variate ⟨float64, 1, G.max - G.min⟩ G s).1 = (Traits.variate ⟨float64, 1, G.max - G.min⟩ H t).1 := by
    rw [Traits.variate, Traits.variate, hc1]
    show Traits.addin _ ((G.call s).1 - G.min) = Traits.addin _ ((H.call t).1 - H.min)
    rw [h, hm]
  refine ⟨?_, ?_, ?_, ?_⟩
  · rw [uniformoo, uniformoo, ← hm, ← hM]; simp only [Traits.oo, hv]
  · rw [uniformoc, uniformoc, ← hm, ← hM]; simp only [Traits.oc, Traits.co, hv]
  · rw [uniformcc, uniformcc, ← hm, ← hM]; simp only [Traits.cc]; split_ifs <;> simp only [hv]
  · rw [uniformco, uniformco, ← hm, ← hM]; simp only [Traits.co, hv]

theorem one_oo (f : ℚ → α) : OneCall fun τ (G : Gen τ) s => (f (uniformoo float64 G s).1, (uniformoo float64 G s).2) :=
  ⟨fun _ _ hG s => (calls_one (F := float64) (by decide) hG s).1, fun _ _ _ _ hG _ hm hM _ _ h => congrArg f (deviates hG hm hM h).1⟩

theorem one_oc (f : ℚ → α) : OneCall fun τ (G : Gen τ) s => (f (uniformoc float64 G s).1, (uniformoc float64 G s).2) :=
  ⟨fun _ _ hG s => (calls_one (F := float64) (by decide) hG s).2.1, fun _ _ _ _ hG _ hm hM _ _ h => congrArg f (deviates hG hm hM h).2.1⟩

theorem one_cc (f : ℚ → α) : OneCall fun τ (G : Gen τ) s => (f (uniformcc float64 G s).1, (uniformcc float64 G s).2) :=
  ⟨fun _ _ hG s => (calls_one (F := float64) (by decide) hG s).2.2.1, fun _ _ _ _ hG _ hm hM _ _ h => congrArg f (deviates hG hm hM h).2.2.1⟩

theorem one_co (f : ℚ → α) : OneCall fun τ (G : Gen τ) s => (f (uniformco float64 G s).1, (uniformco float64 G s).2) :=
  ⟨fun _ _ hG s => (calls_one (F := float64) (by decide) hG s).2.2.2, fun _ _ _ _ hG _ hm hM _ _ h => congrArg f (deviates hG hm hM h).2.2.2⟩

/-! ### Engines -/

/-- Shorter tuples. -/
theorem tuples_pred (hG : G.Sound) (h : TuplesEquidistributed G e T (d + 1)) : TuplesEquidistributed G e T d := by
  obtain ⟨hT, c, hc, hv⟩ := h
  refine ⟨hT, c * (G.max - G.min + 1), le_trans (le_of_eq (by rw [pow_succ]; ring)) hc, fun v => ?_⟩
  have h := Finset.card_le_mul_card_image_of_maps_to (s := (Finset.range T).filter fun k => ∀ i : Fin d, nth G.call e (k + i.val) = v i)
    (t := Finset.Icc G.min G.max) (f := fun k => nth G.call e (k + d)) (fun k _ => Finset.mem_Icc.2 (hG.range _)) c (fun w _ => ?_)
  · rw [Nat.card_Icc] at h
    have := hG.lt
    rwa [show G.max + 1 - G.min = G.max - G.min + 1 by omega] at h
  · refine le_trans (Finset.card_le_card fun k hk => ?_) (hv (Fin.snoc v w))
    rw [Finset.mem_filter, Finset.mem_filter] at hk
    rw [Finset.mem_filter]
    refine ⟨hk.1.1, fun i => ?_⟩
    refine Fin.lastCases ?_ (fun j => ?_) i
    · rw [Fin.snoc_last, Fin.val_last]; exact hk.2
    · rw [Fin.snoc_castSucc, Fin.val_castSucc]; exact hk.1.2 j

theorem tuples_le (hG : G.Sound) {n : ℕ} (h : TuplesEquidistributed G e T n) (hd : d ≤ n) : TuplesEquidistributed G e T d := by
  induction n, hd using Nat.le_induction with
  | base => exact h
  | succ n _ ih => exact ih (tuples_pred hG h)

theorem tuples_one : TuplesEquidistributed G e T 1 ↔ Equidistributed G e T := by
  have key : ∀ v : Fin 1 → ℕ, ((Finset.range T).filter fun k => ∀ i : Fin 1, nth G.call e (k + i.val) = v i) =
      (Finset.range T).filter fun k => nth G.call e k = v 0 := fun v => by
    refine Finset.filter_congr fun k _ => ?_
    rw [Fin.forall_fin_one]; rfl
  constructor
  · rintro ⟨hT, c, hc, hv⟩
    rw [pow_one] at hc
    exact ⟨hT, c, hc, fun v => by have := hv fun _ => v; rwa [key] at this⟩
  · rintro ⟨hT, c, hc, hv⟩
    exact ⟨hT, c, by rw [pow_one]; exact hc, fun v => by rw [key]; exact hv _⟩

theorem xoshiro_arith {N T : ℕ} (h : T + 1 = N * (N * N * N)) : N * N ^ 3 ≤ T + 1 := by rw [h, pow_succ, pow_two]

theorem xoshiro_tuples (e : Xoshiro) (he : e ≠ ⟨0, 0, 0, 0⟩) : TuplesEquidistributed (gen64 Xoshiro.call) e (2 ^ 256 - 1) 3 := by
  have e64 : (gen64 Xoshiro.call).max - (gen64 Xoshiro.call).min + 1 = 2 ^ 64 := by
    show 18446744073709551616 - 1 - 0 + 1 = 18446744073709551616
    norm_num
  refine ⟨by norm_num, 2 ^ 64, by rw [e64]; exact xoshiro_arith (by norm_num), fun v => ?_⟩
  have h := C92_xoshiro_triples e he fun i => BitVec.ofNat 64 (v i)
  refine le_trans (Finset.card_le_card fun k hk => ?_) (h.le.trans (by split_ifs <;> norm_num))
  rw [Finset.mem_filter] at hk ⊢
  refine ⟨hk.1, fun i => ?_⟩
  have := hk.2 i
  rw [gen64_nth] at this
  rw [← this, BitVec.ofNat_toNat, BitVec.setWidth_eq]

open MRG in
theorem mrg_card_tuples (K : Kind) {G : Gen {e : MRG K.order // InRange K.modulus e}} (h0 : G.min = 0) (h1 : G.max = K.modulus - 1) (hG : G.Sound)
    {e : {e : MRG K.order // InRange K.modulus e}}
    (h : ∀ v : Fin K.order → ℕ, (∀ i, v i < K.modulus) →
      ((Finset.range (K.modulus ^ K.order - 1)).filter fun k => ∀ i : Fin K.order, nth G.call e (k + i.val) = v i).card ≤ 1) :
    TuplesEquidistributed G e (K.modulus ^ K.order - 1) K.order := by
  obtain ⟨m1, -, -, o1⟩ := modulus_facts K
  have hge : K.modulus ^ 1 ≤ K.modulus ^ K.order := Nat.pow_le_pow_right (by omega) o1
  rw [pow_one] at hge
  refine ⟨by omega, 1, ?_, fun v => ?_⟩
  · rw [h0, h1, show K.modulus - 1 - 0 + 1 = K.modulus by omega]; omega
  · by_cases hv : ∀ i, v i < K.modulus
    · exact h v hv
    · rw [Finset.card_eq_zero.2]
      · exact Nat.zero_le _
      · refine Finset.filter_eq_empty_iff.2 fun k _ hc => hv fun i => ?_
        have := (hG.range (afterCalls G.call (k + i.val) e)).2
        rw [h1] at this
        change nth G.call e (k + i.val) ≤ _ at this
        rw [hc i] at this
        omega

open MRG in
theorem mrg_tuples (K : Kind) {l : List Int} (hl : l ∈ fullPeriod K) (e : {e : MRG K.order // InRange K.modulus e}) (hu : Uses e.1 l) (hz : NonZero e.1) :
    TuplesEquidistributed (mrgGen K) e (K.modulus ^ K.order - 1) K.order := by
  refine mrg_card_tuples K rfl rfl (mrg_sound K) fun v hv => ?_
  have := C92_mrg_uniform K l hl e.1 hu e.2 hz K.order le_rfl (fun i => (v i : Int)) (fun i => ⟨by omega, by have := hv i; omega⟩)
  rw [Nat.sub_self, pow_zero] at this
  refine le_trans (Finset.card_le_card fun k hk => ?_) (this.le.trans (Nat.sub_le _ _))
  rw [Finset.mem_filter] at hk ⊢
  refine ⟨hk.1, fun i => ?_⟩
  have h2 := hk.2 i
  rw [mrgGen, sub_nth] at h2
  have := (C26_mrg_range K e.1 e.2 (k + i.val)).1
  show nth (call K.modulus) e.1 (k + i.val) = (v i : Int)
  omega

open MRG in
theorem yarn_tuples (K : Kind) {l : List Int} (hl : l ∈ fullPeriod K) (e : {e : MRG K.order // InRange K.modulus e}) (hu : Uses e.1 l) (hz : NonZero e.1) :
    TuplesEquidistributed (yarnGen K) e (K.modulus ^ K.order - 1) K.order := by
  refine mrg_card_tuples K rfl rfl (yarn_sound K) fun v hv => ?_
  have := C92_yarn_uniform K l hl e.1 hu e.2 hz K.order le_rfl (fun i => (v i : Int)) (fun i => ⟨by omega, by have := hv i; omega⟩)
  rw [Nat.sub_self, pow_zero] at this
  refine le_trans (Finset.card_le_card fun k hk => ?_) (this.le.trans (Nat.sub_le _ _))
  rw [Finset.mem_filter] at hk ⊢
  refine ⟨hk.1, fun i => ?_⟩
  have h2 := hk.2 i
  rw [yarnGen, sub_nth] at h2
  obtain ⟨y, ey, y0, y1⟩ := C30_yarn_range K e.1 e.2 (k + i.val)
  rw [ey] at h2 ⊢
  change y.toNat = v i at h2
  show some y = some (v i : Int)
  congr 1
  omega

open MT in
theorem mt_tuples {w n c : ℕ} {P : Params w} {T : ℕ} (e : {e : MT P // 0 ≤ e.mti}) {x : ℕ → BitVec w} (hx : ∀ k, nth call e.1 k = some (x k)) (hT : 0 < T)
    (h : ∀ v : Fin (n + 1) → BitVec w, ((Finset.range T).filter fun k => ∀ i : Fin (n + 1), nth call e.1 (k + i.val) = some (v i)).card ≤ c)
    (hc : c * (2 ^ w) ^ n * 2 ^ w ≤ T + 1) : TuplesEquidistributed (mtGen P) e T (n + 1) := by
  have hw0 : 0 < 2 ^ w := by positivity
  refine ⟨hT, c, ?_, fun v => ?_⟩
  · show c * (2 ^ w - 1 - 0 + 1) ^ (n + 1) ≤ T + 1
    rw [show 2 ^ w - 1 - 0 + 1 = 2 ^ w by omega, pow_succ, ← mul_assoc]
    exact hc
  · refine le_trans (Finset.card_le_card fun k hk => ?_) (h fun i => BitVec.ofNat w (v i))
    rw [Finset.mem_filter] at hk ⊢
    refine ⟨hk.1, fun i => ?_⟩
    have h2 := hk.2 i
    rw [mtGen, sub_nth, hx] at h2
    change (x (k + i.val)).toNat = v i at h2
    rw [hx, ← h2, BitVec.ofNat_toNat, BitVec.setWidth_eq]

open MT in
theorem mt32_tuples (e : {e : MT mt19937 // 0 ≤ e.mti}) (h1 : 1 ≤ e.1.mti)
    (hl : ∃ (i : Fin 624) (j : Nat), (e.1.mt i).getLsbD j = true ∧ (i.val ≠ 0 ∨ 31 ≤ j)) : TuplesEquidistributed (mtGen mt19937) e (2 ^ 19937 - 1) 623 := by
  obtain ⟨X, -, -, hX⟩ := C36_mt19937 e.1 e.2
  have hp : 0 < 2 ^ 19937 := by positivity
  have hp2 : (2 : ℕ) ^ 1 < 2 ^ 19937 := pow_lt_pow_right₀ one_lt_two (by decide)
  generalize hN : (2 : ℕ) ^ 19937 = N at *
  have h2 := C75_mt19937_equidistributed e.1 h1 hl
  rw [hN] at h2
  refine mt_tuples (n := 622) (c := 2 ^ 1) e hX (by omega) (fun v => ?_) (pow_arith (b := 19937) (by norm_num) (by rw [hN]; omega))
  rw [h2 v]
  split_ifs <;> norm_num

open MT in
theorem mt64_tuples (e : {e : MT mt19937_64 // 0 ≤ e.mti}) (h1 : 1 ≤ e.1.mti)
    (hl : ∃ (i : Fin 312) (j : Nat), (e.1.mt i).getLsbD j = true ∧ (i.val ≠ 0 ∨ 31 ≤ j)) : TuplesEquidistributed (mtGen mt19937_64) e (2 ^ 19937 - 1) 311 := by
  obtain ⟨X, -, -, hX⟩ := C36_mt19937_64 e.1 e.2
  have hp : 0 < 2 ^ 19937 := by positivity
  have hp2 : (2 : ℕ) ^ 1 < 2 ^ 19937 := pow_lt_pow_right₀ one_lt_two (by decide)
  generalize hN : (2 : ℕ) ^ 19937 = N at *
  have h2 := C75_mt19937_64_equidistributed e.1 h1 hl
  rw [hN] at h2
  refine mt_tuples (n := 310) (c := 2 ^ 33) e hX (by omega) (fun v => ?_) (pow_arith (b := 19937) (by norm_num) (by rw [hN]; omega))
  rw [h2 v]
  split_ifs <;> norm_num

end Trng.Independence
