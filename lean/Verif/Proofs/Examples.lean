import Verif.Spec.Examples
import Verif.Proofs.Blocks
import Verif.Proofs.UniformTraits
import Mathlib.Algebra.BigOperators.Group.Finset.Basic
import Mathlib.Algebra.BigOperators.Group.List.Basic
import Mathlib.Tactic.Ring
/- Lemmas for C83. -/
namespace Trng.Examples
open Spec FP

/-- What the proofs use of an engine: `u(r)` is a function of the value of one call, and `jump(n)` is `n` calls. -/
structure Lawful {σ α : Type} (A : Engine σ) (call : σ → α × σ) (f : α → ℚ) (ok : σ → Prop) : Prop where
  u : ∀ s, A.u s = (f (call s).1, (call s).2)
  step : ∀ s, ok s → ok (call s).2
  jump : ∀ s n, ok s → A.jump s n = afterCalls call n.toNat s

variable {σ α : Type} {A : Engine σ} {call : σ → α × σ} {f : α → ℚ} {ok : σ → Prop}

theorem after_succ (m : Nat) (e : σ) : (call (afterCalls call m e)).2 = afterCalls call (m + 1) e := by
  rw [Nat.add_comm, afterCalls_add]; rfl

theorem Lawful.after (h : Lawful A call f ok) {e : σ} (he : ok e) : ∀ m, ok (afterCalls call m e)
  | 0 => he
  | m + 1 => by rw [← after_succ]; exact h.step _ (h.after he m)

theorem Lawful.jump_after (h : Lawful A call f ok) {e : σ} (he : ok e) (m n : Nat) (hn : n < 2 ^ 64) :
    A.jump (afterCalls call m e) (BitVec.ofNat 64 n) = afterCalls call (m + n) e := by
  rw [h.jump _ _ (h.after he m), BitVec.toNat_ofNat, Nat.mod_eq_of_lt hn, Nat.add_comm, afterCalls_add]

theorem ofInt_natCast (w n : Nat) : BitVec.ofInt w (n : ℤ) = BitVec.ofNat w n := by
  simp

/-! ### pi -/

/-- Is point number `i` of the sequential program in the circle? -/
def inside (F : Fmt) (call : σ → α × σ) (f : α → ℚ) (e : σ) (i : Nat) : Bool :=
  point F (f (nth call e (2 * i))) (f (nth call e (2 * i + 1)))

theorem piLoop_eq (F : Fmt) (h : Lawful A call f ok) (e : σ) (n : Nat) : ∀ (lo : Nat) (c : ℤ),
    piLoop F A n (afterCalls call (2 * lo) e) c = c + ((List.range' lo n).countP (inside F call f e) : ℕ) := by
  induction n with
  | zero => intro lo c; simp [piLoop]
  | succ n ih =>
    intro lo c
    simp only [piLoop, h.u, after_succ]
    rw [show 2 * lo + 1 + 1 = 2 * (lo + 1) by ring, ih, List.range'_succ, List.countP_cons]
    have : point F (f (call (afterCalls call (2 * lo) e)).1) (f (call (afterCalls call (2 * lo + 1) e)).1) =
        inside F call f e lo := rfl
    rw [this]
    split <;> simp_all <;> ring

theorem reduce_eq {f : ℤ → Option ℤ} {g : ℤ → ℤ} : ∀ {order : List ℤ}, (∀ r ∈ order, f r = some (g r)) →
    reduce f order = some (order.map g).sum
  | [], _ => rfl
  | r :: order, h => by
    rw [reduce, h r (by simp), reduce_eq fun r hr => h r (by simp [hr])]
    simp

theorem reduce_perm {f : ℤ → Option ℤ} {g : Nat → Nat} {size : Nat} {order : List ℤ}
    (ho : order.Perm ((List.range size).map Nat.cast)) (h : ∀ r, r < size → f (r : ℤ) = some (g r : ℤ)) :
    reduce f order = some ((∑ r ∈ Finset.range size, g r : ℕ) : ℤ) := by
  have h1 : ∀ r ∈ order, f r = some ((fun r : ℤ => (g r.toNat : ℤ)) r) := by
    intro r hr
    have := ho.mem_iff.1 hr
    simp only [List.mem_map, List.mem_range] at this
    obtain ⟨k, hk, rfl⟩ := this
    rw [h k hk]; simp
  rw [reduce_eq h1, (ho.map _).sum_eq, List.map_map]
  congr 1
  clear h h1 ho
  induction size with
  | zero => simp
  | succ n ih => rw [List.range_succ, List.map_append, List.sum_append, ih, Finset.sum_range_succ]; simp

/-- Consecutive sections of a range. -/
theorem sum_sections (p : Nat → Bool) (b : Nat → Nat) (hb : ∀ r, b r ≤ b (r + 1)) (h0 : b 0 = 0) (n : Nat) :
    ∑ r ∈ Finset.range n, (List.range' (b r) (b (r + 1) - b r)).countP p = (List.range (b n)).countP p := by
  induction n with
  | zero => simp [h0]
  | succ n ih =>
    rw [Finset.sum_range_succ, ih, List.range_eq_range', List.range_eq_range', ← List.countP_append]
    congr 1
    have := List.range'_append (s := 0) (m := b n) (n := b (n + 1) - b n) (step := 1)
    simp only [one_mul, Nat.zero_add] at this
    rw [this]
    congr 1
    have := hb n
    omega

theorem long_nat {n : Nat} (h : n < 2 ^ 63) : long (n : ℤ) = some (n : ℤ) := by
  unfold long; rw [if_pos]; constructor
  · have : (0 : ℤ) ≤ n := by positivity
    omega
  · exact_mod_cast h

theorem int_nat {n : Nat} (h : n < 2 ^ 31) : int (n : ℤ) = some (n : ℤ) := by
  unfold int; rw [if_pos]; constructor
  · have : (0 : ℤ) ≤ n := by positivity
    omega
  · exact_mod_cast h

theorem tdiv_nat (a b : Nat) : (a : ℤ).tdiv (b : ℤ) = ((a / b : ℕ) : ℤ) := by
  rw [Int.tdiv_eq_ediv_of_nonneg (by positivity)]; rfl

theorem div_le_of_lt {r S size : Nat} (hr : r ≤ size) : r * S / size ≤ S := by
  rcases Nat.eq_zero_or_pos size with h | h
  · subst h; simp
  · rw [Nat.div_le_iff_le_mul_add_pred h]
    have := Nat.mul_le_mul_right S hr
    omega

theorem piBlockRank_of {F : Fmt} {r : σ} {samples size rank p j next q : ℤ} (h1 : long (rank * samples) = some p)
    (h2 : long (2 * p.tdiv size) = some j) (h3 : int (rank + 1) = some next) (h4 : long (next * samples) = some q) :
    piBlockRank F A r samples size rank =
      some (piLoop F A (q.tdiv size - p.tdiv size).toNat (A.jump r (BitVec.ofInt 64 j)) 0) := by
  simp only [piBlockRank, h1, h2, h3, h4, Option.bind_eq_bind, Option.bind_some, Option.pure_def]

theorem piBlockRank_eq (F : Fmt) (h : Lawful A call f ok) {e : σ} (he : ok e) {S size r : Nat} (hr : r < size)
    (hs : size < 2 ^ 31) (hb : size * S < 2 ^ 63) (hS : S < 2 ^ 62) :
    piBlockRank F A e S size r = some (((List.range' (r * S / size) ((r + 1) * S / size - r * S / size)).countP
      (inside F call f e) : ℕ) : ℤ) := by
  have h1 : r * S < 2 ^ 63 := lt_of_le_of_lt (Nat.mul_le_mul_right S hr.le) hb
  have h2 : (r + 1) * S < 2 ^ 63 := lt_of_le_of_lt (Nat.mul_le_mul_right S hr) hb
  have h3 : r * S / size ≤ S := div_le_of_lt hr.le
  have c1 : (r : ℤ) * (S : ℤ) = ((r * S : ℕ) : ℤ) := by push_cast; rfl
  have c2 : (2 : ℤ) * ((r * S / size : ℕ) : ℤ) = ((2 * (r * S / size) : ℕ) : ℤ) := by push_cast; rfl
  have c3 : (r : ℤ) + 1 = ((r + 1 : ℕ) : ℤ) := by push_cast; rfl
  have c4 : ((r + 1 : ℕ) : ℤ) * (S : ℤ) = (((r + 1) * S : ℕ) : ℤ) := by push_cast; rfl
  have hle : r * S / size ≤ (r + 1) * S / size := Nat.div_le_div_right (Nat.mul_le_mul_right S (by omega))
  rw [piBlockRank_of (p := ((r * S : ℕ) : ℤ)) (j := ((2 * (r * S / size) : ℕ) : ℤ)) (next := ((r + 1 : ℕ) : ℤ))
    (q := (((r + 1) * S : ℕ) : ℤ)) (by rw [c1, long_nat h1]) (by rw [tdiv_nat, c2, long_nat (by omega)])
    (by rw [c3, int_nat (by omega)]) (by rw [c4, long_nat h2])]
  have hj := h.jump_after he 0 (2 * (r * S / size)) (by omega)
  rw [Nat.zero_add] at hj
  have hd : ((((r + 1) * S / size : ℕ) : ℤ) - ((r * S / size : ℕ) : ℤ)).toNat = (r + 1) * S / size - r * S / size := by
    omega
  rw [tdiv_nat, tdiv_nat, ofInt_natCast, hd]
  refine congrArg some ?_
  rw [show A.jump e = A.jump (afterCalls call 0 e) from rfl, hj, piLoop_eq F h, zero_add]

theorem piSeq_eq (F : Fmt) (h : Lawful A call f ok) (e : σ) (S : Nat) :
    piSeq F A e S = ((List.range S).countP (inside F call f e) : ℕ) := by
  unfold piSeq
  rw [Int.toNat_natCast, show e = afterCalls call (2 * 0) e from rfl, piLoop_eq F h, zero_add, List.range_eq_range']
  rfl

theorem piBlock_eq (F : Fmt) (h : Lawful A call f ok) {e : σ} (he : ok e) {S size : Nat} (hs0 : 0 < size)
    (hs : size < 2 ^ 31) (hb : size * S < 2 ^ 63) (hS : S < 2 ^ 62) {order : List ℤ}
    (ho : order.Perm ((List.range size).map Nat.cast)) :
    reduce (piBlockRank F A e S size) order = some (piSeq F A e S) := by
  rw [reduce_perm ho (fun r hr => piBlockRank_eq F h he hr hs hb hS), piSeq_eq F h,
    sum_sections _ (fun r => r * S / size) (fun r => Nat.div_le_div_right (Nat.mul_le_mul_right S (by omega))) (by simp)]
  rw [Nat.mul_div_cancel_left S hs0]

/-! ### TBB -/

theorem Task.Covers.le : ∀ {t : Task} {lo hi : Nat}, t.Covers lo hi → lo ≤ hi
  | .range _ _, _, _, h => h.2.2
  | .seq _ _, _, _, h => by obtain ⟨m, h1, h2⟩ := h; exact h1.le.trans h2.le
  | .fork _ _, _, _, h => by obtain ⟨m, h1, h2⟩ := h; exact h1.le.trans h2.le

theorem countP_split (p : Nat → Bool) {a b c : Nat} (h1 : a ≤ b) (h2 : b ≤ c) :
    (List.range' a (b - a)).countP p + (List.range' b (c - b)).countP p = (List.range' a (c - a)).countP p := by
  rw [← List.countP_append]
  congr 1
  have := List.range'_append (s := a) (m := b - a) (n := c - b) (step := 1)
  rw [one_mul, show a + (b - a) = b by omega] at this
  rw [this]
  congr 1
  omega

theorem piTask_eq (F : Fmt) (h : Lawful A call f ok) {e : σ} (he : ok e) : ∀ (t : Task) (lo hi : Nat) (c : ℤ),
    t.Covers lo hi → hi < 2 ^ 62 →
    piTask F A e t c = c + ((List.range' lo (hi - lo)).countP (inside F call f e) : ℕ)
  | .range a b, lo, hi, c, ht, hb => by
    obtain ⟨rfl, rfl, hle⟩ := ht
    have := h.jump_after he 0 (2 * a) (by omega)
    rw [Nat.zero_add] at this
    rw [piTask, show A.jump e = A.jump (afterCalls call 0 e) from rfl, this, piLoop_eq F h]
  | .seq s t, lo, hi, c, ht, hb => by
    obtain ⟨m, h1, h2⟩ := ht
    rw [piTask, piTask_eq F h he s lo m c h1 (lt_of_le_of_lt h2.le hb), piTask_eq F h he t m hi _ h2 hb,
      ← countP_split _ h1.le h2.le]
    push_cast; ring
  | .fork s t, lo, hi, c, ht, hb => by
    obtain ⟨m, h1, h2⟩ := ht
    rw [piTask, piTask_eq F h he s lo m c h1 (lt_of_le_of_lt h2.le hb), piTask_eq F h he t m hi _ h2 hb,
      ← countP_split _ h1.le h2.le]
    push_cast; ring

/-! ### leapfrog -/

/-- How many of the points `i ≥ lo` below `S` with `i % size = r` are in the circle. -/
def rankHits (p : Nat → Bool) (S size r lo : Nat) : Nat :=
  ((Finset.range S).filter fun i => lo ≤ i ∧ i % size = r ∧ p i = true).card

theorem rankHits_step (p : Nat → Bool) {S size r i : Nat} (hi : i < S) (hr : r < size) (hm : i % size = r) :
    rankHits p S size r i = (if p i then 1 else 0) + rankHits p S size r (i + size) := by
  have key : ∀ k, (i ≤ k ∧ k % size = r ∧ p k = true) ↔ (k = i ∧ p i = true) ∨ (i + size ≤ k ∧ k % size = r ∧ p k = true) := by
    intro k
    constructor
    · rintro ⟨h1, h2, h3⟩
      by_cases hk : k = i
      · subst hk; exact Or.inl ⟨rfl, h3⟩
      · refine Or.inr ⟨?_, h2, h3⟩
        by_contra hc
        have h4 := Nat.div_add_mod k size
        have h5 := Nat.div_add_mod i size
        have h6 : i / size ≤ k / size := Nat.div_le_div_right h1
        have h7 : k / size = i / size := by
          by_contra hne
          have : i / size + 1 ≤ k / size := by omega
          have := Nat.mul_le_mul_left size this
          rw [Nat.mul_add, Nat.mul_one] at this
          omega
        rw [h7] at h4
        omega
    · rintro (⟨rfl, h⟩ | ⟨h1, h2, h3⟩)
      · exact ⟨le_rfl, hm, h⟩
      · exact ⟨by omega, h2, h3⟩
  unfold rankHits
  by_cases hp : p i = true
  · have : (Finset.range S).filter (fun k => i ≤ k ∧ k % size = r ∧ p k = true) =
        insert i ((Finset.range S).filter fun k => i + size ≤ k ∧ k % size = r ∧ p k = true) := by
      ext k
      simp only [Finset.mem_filter, Finset.mem_range, Finset.mem_insert, key k]
      constructor
      · rintro ⟨h1, h2 | h2⟩
        · exact Or.inl h2.1
        · exact Or.inr ⟨h1, h2⟩
      · rintro (rfl | ⟨h1, h2⟩)
        · exact ⟨hi, Or.inl ⟨rfl, hp⟩⟩
        · exact ⟨h1, Or.inr h2⟩
    rw [this, Finset.card_insert_of_notMem, if_pos hp, Nat.add_comm]
    simp only [Finset.mem_filter, not_and]
    intro _ h1
    omega
  · rw [if_neg hp, Nat.zero_add]
    congr 1
    ext k
    simp only [Finset.mem_filter, key k]
    constructor
    · rintro ⟨h1, h2 | h2⟩
      · exact absurd h2.2 hp
      · exact ⟨h1, h2⟩
    · rintro ⟨h1, h2⟩; exact ⟨h1, Or.inr h2⟩

theorem rankHits_end (p : Nat → Bool) {S size r i : Nat} (hi : S ≤ i) : rankHits p S size r i = 0 := by
  unfold rankHits
  rw [Finset.card_eq_zero, Finset.filter_eq_empty_iff]
  intro k hk
  have := Finset.mem_range.1 hk
  omega

theorem rankHits_rank (p : Nat → Bool) {S size r : Nat} :
    rankHits p S size r r = ((Finset.range S).filter fun i => i % size = r ∧ p i = true).card := by
  unfold rankHits
  congr 1
  ext k
  simp only [Finset.mem_filter]
  constructor
  · rintro ⟨h1, h2, h3⟩; exact ⟨h1, h3⟩
  · rintro ⟨h1, h3⟩; exact ⟨h1, by rw [← h3.1]; exact Nat.mod_le _ _, h3⟩

theorem sum_rankHits (p : Nat → Bool) {S size : Nat} (hs : 0 < size) :
    ∑ r ∈ Finset.range size, rankHits p S size r r = (List.range S).countP p := by
  simp only [rankHits_rank]
  have h1 : (List.range S).countP p = ((Finset.range S).filter fun i => p i = true).card := by
    rw [List.countP_eq_length_filter, ← List.toFinset_card_of_nodup (List.Nodup.filter _ List.nodup_range)]
    congr 1
    ext k
    simp
  rw [h1, Finset.card_eq_sum_card_fiberwise (f := fun i => i % size) (t := Finset.range size)]
  · refine Finset.sum_congr rfl fun r _ => ?_
    congr 1
    ext k
    simp only [Finset.mem_filter]
    tauto
  · intro k _
    simp only [Finset.coe_range, Set.mem_Iio]
    exact Nat.mod_lt _ hs

theorem leapLoop_eq (F : Fmt) (h : Lawful A call f ok) {e rx ry : σ} {S size r : Nat} (hr : r < size)
    (hs : size < 2 ^ 31) (hS : S < 2 ^ 62)
    (hx : Leapfrog call e rx (2 * size) (2 * r)) (hy : Leapfrog call e ry (2 * size) (2 * r + 1)) :
    ∀ (fuel k : Nat) (c : ℤ), 0 < fuel → S < fuel + (r + k * size) → r + k * size < 2 ^ 63 →
    leapLoop F A S size fuel ((r + k * size : ℕ) : ℤ) (afterCalls call k rx) (afterCalls call k ry) c =
      some (c + (rankHits (inside F call f e) S size r (r + k * size) : ℕ)) := by
  intro fuel
  induction fuel with
  | zero => intro k c h0; omega
  | succ fuel ih =>
    intro k c _ h1 h2
    rw [leapLoop]
    by_cases hlt : r + k * size < S
    · rw [if_pos (by exact_mod_cast hlt)]
      have c1 : ((r + k * size : ℕ) : ℤ) + (size : ℤ) = ((r + (k + 1) * size : ℕ) : ℤ) := by push_cast; ring
      have hn : r + (k + 1) * size = r + k * size + size := by ring
      rw [c1, long_nat (by omega)]
      simp only [h.u, after_succ, Option.bind_eq_bind, Option.bind_some]
      rw [ih (k + 1) _ (by omega) (by omega) (by omega)]
      have e1 : (call (afterCalls call k rx)).1 = nth call e (2 * (r + k * size)) := by
        have := hx k
        rw [show k * (2 * size) + 2 * r = 2 * (r + k * size) by ring] at this
        exact this
      have e2 : (call (afterCalls call k ry)).1 = nth call e (2 * (r + k * size) + 1) := by
        have := hy k
        rw [show k * (2 * size) + (2 * r + 1) = 2 * (r + k * size) + 1 by ring] at this
        exact this
      have e3 : point F (f (call (afterCalls call k rx)).1) (f (call (afterCalls call k ry)).1) =
          inside F call f e (r + k * size) := by rw [e1, e2]; rfl
      rw [e3, rankHits_step (inside F call f e) hlt hr (by rw [Nat.add_mul_mod_self_right]; exact Nat.mod_eq_of_lt hr), ← hn]
      split <;> (congr 1; push_cast; ring)
    · rw [if_neg (by exact_mod_cast hlt), rankHits_end _ (by omega)]
      simp

theorem splitTo_nat {r r' : σ} {s n : Nat} (h : A.split r (BitVec.ofNat 32 s) (BitVec.ofNat 32 n) = .ok r') :
    splitTo A r (s : ℤ) (n : ℤ) = some r' := by
  unfold splitTo
  rw [ofInt_natCast, ofInt_natCast, h]

theorem piLeapRank_of {F : Fmt} {r x0 y0 x y : σ} {samples size rank : ℤ} (h1 : splitTo A r 2 0 = some x0)
    (h2 : splitTo A r 2 1 = some y0) (h3 : splitTo A x0 size rank = some x) (h4 : splitTo A y0 size rank = some y) :
    piLeapRank F A r samples size rank = leapLoop F A samples size (samples.toNat + 1) rank x y 0 := by
  simp only [piLeapRank, h1, h2, h3, h4, Option.bind_eq_bind, Option.bind_some]

/-- `hsplit`: the engine splits twice as the program does. -/
theorem piLeap_eq (F : Fmt) (h : Lawful A call f ok) {e : σ} {S size : Nat} (hs0 : 0 < size)
    (hs : size < 2 ^ 31) (hS : S < 2 ^ 62) {order : List ℤ}
    (hsplit : ∀ r j : Nat, r < size → j < 2 → ∃ e1 e2,
      A.split e (BitVec.ofNat 32 2) (BitVec.ofNat 32 j) = .ok e1 ∧
      A.split e1 (BitVec.ofNat 32 size) (BitVec.ofNat 32 r) = .ok e2 ∧ Leapfrog call e e2 (2 * size) (2 * r + j))
    (ho : order.Perm ((List.range size).map Nat.cast)) :
    reduce (piLeapRank F A e S size) order = some (piSeq F A e S) := by
  rw [reduce_perm ho (g := fun r => rankHits (inside F call f e) S size r r), piSeq_eq F h, sum_rankHits _ hs0]
  intro r hr
  obtain ⟨x0, x, h1, h2, h3⟩ := hsplit r 0 hr (by omega)
  obtain ⟨y0, y, h4, h5, h6⟩ := hsplit r 1 hr (by omega)
  rw [piLeapRank_of (splitTo_nat (s := 2) (n := 0) h1) (splitTo_nat (s := 2) (n := 1) h4) (splitTo_nat h2)
    (splitTo_nat h5)]
  have := leapLoop_eq F h hr hs hS h3 h6 (S + 1) 0 0 (by omega) (by omega) (by omega)
  simp only [Nat.zero_mul, Nat.add_zero, zero_add, afterCalls] at this
  rw [Int.toNat_natCast]
  exact this

theorem cudaLeapLoop_eq (F : Fmt) (h : Lawful A call f ok) {e rx ry : σ} {size r : Nat}
    (hx : Leapfrog call e rx (2 * size) (2 * r)) (hy : Leapfrog call e ry (2 * size) (2 * r + 1)) :
    ∀ (n k : Nat) (c : ℤ), cudaLeapLoop F A n (afterCalls call k rx) (afterCalls call k ry) c =
      c + ((List.range' k n).countP fun j => inside F call f e (j * size + r) : ℕ) := by
  intro n
  induction n with
  | zero => intro k c; simp [cudaLeapLoop]
  | succ n ih =>
    intro k c
    simp only [cudaLeapLoop, h.u, after_succ]
    rw [ih, List.range'_succ, List.countP_cons]
    have e1 : (call (afterCalls call k rx)).1 = nth call e (2 * (k * size + r)) := by
      have := hx k
      rw [show k * (2 * size) + 2 * r = 2 * (k * size + r) by ring] at this
      exact this
    have e2 : (call (afterCalls call k ry)).1 = nth call e (2 * (k * size + r) + 1) := by
      have := hy k
      rw [show k * (2 * size) + (2 * r + 1) = 2 * (k * size + r) + 1 by ring] at this
      exact this
    have e3 : point F (f (call (afterCalls call k rx)).1) (f (call (afterCalls call k ry)).1) =
        inside F call f e (k * size + r) := by rw [e1, e2]; rfl
    rw [e3]
    split <;> simp_all <;> ring

/-- `hsplit`: the engine splits twice as the program does. -/
theorem piLeapCuda_eq (F : Fmt) (h : Lawful A call f ok) {e : σ} {S size : Nat}
    (hb : size * S < 2 ^ 63) {order : List ℤ}
    (hsplit : ∀ r j : Nat, r < size → j < 2 → ∃ e1 e2,
      A.split e (BitVec.ofNat 32 2) (BitVec.ofNat 32 j) = .ok e1 ∧
      A.split e1 (BitVec.ofNat 32 size) (BitVec.ofNat 32 r) = .ok e2 ∧ Leapfrog call e e2 (2 * size) (2 * r + j))
    (ho : order.Perm ((List.range size).map Nat.cast)) :
    reduce (piLeapCudaRank F A e S size) order =
      some ((∑ r ∈ Finset.range size, (List.range ((r + 1) * S / size - r * S / size)).countP
        fun k => inside F call f e (k * size + r) : ℕ) : ℤ) := by
  rw [reduce_perm ho (g := fun r => (List.range ((r + 1) * S / size - r * S / size)).countP
    fun k => inside F call f e (k * size + r))]
  intro r hr
  obtain ⟨x0, x, h1, h2, h3⟩ := hsplit r 0 hr (by omega)
  obtain ⟨y0, y, h4, h5, h6⟩ := hsplit r 1 hr (by omega)
  have b1 : (r + 1) * S ≤ size * S := Nat.mul_le_mul_right S hr
  have b2 : r * S ≤ size * S := Nat.mul_le_mul_right S hr.le
  have l1 : long ((r : ℤ) * (S : ℤ)) = some ((r * S : ℕ) : ℤ) := by
    rw [← long_nat (n := r * S) (by omega)]; push_cast; rfl
  have l2 : long (((r : ℤ) + 1) * (S : ℤ)) = some (((r + 1) * S : ℕ) : ℤ) := by
    rw [← long_nat (n := (r + 1) * S) (by omega)]; push_cast; rfl
  have h1' := splitTo_nat (s := 2) (n := 0) h1
  have h4' := splitTo_nat (s := 2) (n := 1) h4
  simp only [piLeapCudaRank]
  rw [show splitTo A e 2 0 = some x0 from h1', show splitTo A e 2 1 = some y0 from h4']
  simp only [Option.bind_eq_bind, Option.bind_some, splitTo_nat h2, splitTo_nat h5, l1, l2, tdiv_nat]
  have hd : r * S / size ≤ (r + 1) * S / size := Nat.div_le_div_right (Nat.mul_le_mul_right S (by omega))
  rw [show ((((r + 1) * S / size : ℕ) : ℤ) - ((r * S / size : ℕ) : ℤ)).toNat =
    (r + 1) * S / size - r * S / size by omega]
  have := cudaLeapLoop_eq F h h3 h6 ((r + 1) * S / size - r * S / size) 0 0
  simp only [afterCalls, zero_add, ← List.range_eq_range'] at this
  rw [this]
  rfl

/-- The points of equal blocks, dealt out in turn. -/
theorem sum_dealt (p : Nat → Bool) (size : Nat) : ∀ q : Nat,
    (∑ r ∈ Finset.range size, (List.range q).countP fun k => p (k * size + r)) =
      (List.range (q * size)).countP p
  | 0 => by simp
  | q + 1 => by
    simp only [List.range_succ, List.countP_append, Finset.sum_add_distrib]
    rw [sum_dealt p size q, Nat.succ_mul, List.range_add, List.countP_append]
    congr 1
    simp only [List.countP_singleton]
    generalize q * size = m
    induction size with
    | zero => simp
    | succ n ih => rw [Finset.sum_range_succ, ih, List.range_succ, List.map_append, List.countP_append]; simp

/-! ### site percolation -/

/-- Is the site with number `i` in the sequence of deviates occupied? -/
def occupied (call : σ → α × σ) (f : α → ℚ) (P : ℚ) (e : σ) (i : Nat) : Bool := decide (f (nth call e i) < P)

theorem fillRow_eq (h : Lawful A call f ok) (P : ℚ) (e : σ) (n : Nat) : ∀ m : Nat,
    fillRow A P n (afterCalls call m e) =
      ((List.range' m n).map (occupied call f P e), afterCalls call (m + n) e) := by
  induction n with
  | zero => intro m; rfl
  | succ n ih =>
    intro m
    simp only [fillRow, h.u, after_succ]
    rw [ih, List.range'_succ, List.map_cons, show m + 1 + n = m + (n + 1) by ring]
    rfl

/-- The lattice of realisation number `i`: `n` rows of `w` sites, the rows `d` apart, from site `m` on. -/
def rowsAt (call : σ → α × σ) (f : α → ℚ) (P : ℚ) (e : σ) (m n d w : Nat) : List (List Bool) :=
  (List.range n).map fun x => (List.range' (m + x * d) w).map (occupied call f P e)

theorem rowsAt_succ (P : ℚ) (e : σ) (m n d w : Nat) : rowsAt call f P e m (n + 1) d w =
    (List.range' m w).map (occupied call f P e) :: rowsAt call f P e (m + d) n d w := by
  unfold rowsAt
  rw [List.range_succ_eq_map, List.map_cons, List.map_map]
  simp only [Nat.zero_mul, Nat.add_zero]
  congr 1
  apply List.map_congr_left
  intro x _
  simp only [Function.comp]
  rw [show m + Nat.succ x * d = m + d + x * d by rw [Nat.succ_mul]; ring]

theorem fillRows_eq (h : Lawful A call f ok) (P : ℚ) (e : σ) (Ny n : Nat) : ∀ m : Nat,
    fillRows A P Ny n (afterCalls call m e) =
      (rowsAt call f P e m n Ny Ny, afterCalls call (m + n * Ny) e) := by
  induction n with
  | zero => intro m; simp [fillRows, rowsAt]
  | succ n ih =>
    intro m
    simp only [fillRows, fillRow_eq h]
    rw [ih, rowsAt_succ, show m + Ny + n * Ny = m + (n + 1) * Ny by ring]

theorem fineRows_eq (h : Lawful A call f ok) (P : ℚ) {e : σ} (he : ok e) {Nx Nxl : Nat} (hle : Nxl ≤ Nx)
    (hx : Nx < 2 ^ 31) (n : Nat) : ∀ m : Nat,
    fineRows A P Nx Nxl n (afterCalls call m e) =
      (rowsAt call f P e m n Nx Nxl, afterCalls call (m + n * Nx) e) := by
  induction n with
  | zero => intro m; simp [fineRows, rowsAt]
  | succ n ih =>
    intro m
    simp only [fineRows, Int.toNat_natCast, fillRow_eq h]
    rw [show (Nx : ℤ) - (Nxl : ℤ) = ((Nx - Nxl : ℕ) : ℤ) by omega, ofInt_natCast, h.jump_after he _ _ (by omega),
      show m + Nxl + (Nx - Nxl) = m + Nx by omega, ih, rowsAt_succ, show m + Nx + n * Nx = m + (n + 1) * Nx by ring]

theorem fineLoop_of {P : ℚ} {Nx Ny Nxl Nyl skip : ℤ} (h : int (Nx * (Ny - Nyl)) = some skip) {l : List (List Bool)}
    {R R' : σ} (hs : fineRows A P Nx Nxl Nyl.toNat R = (l, R')) (n : Nat) {rest : List (List (List Bool))}
    (hr : fineLoop A P Nx Ny Nxl Nyl n (A.jump R' (BitVec.ofInt 64 skip)) = some rest) :
    fineLoop A P Nx Ny Nxl Nyl (n + 1) R = some (l :: rest) := by
  simp only [fineLoop, h, hs, hr, Option.bind_eq_bind, Option.bind_some, Option.pure_def]

theorem fineLoop_eq (h : Lawful A call f ok) (P : ℚ) {e : σ} (he : ok e) {Nx Ny Nxl Nyl : Nat} (hx : Nxl ≤ Nx)
    (hy : Nyl ≤ Ny) (hx0 : Nx < 2 ^ 31) (hxy : Nx * Ny < 2 ^ 31) (n : Nat) : ∀ m : Nat,
    fineLoop A P Nx Ny Nxl Nyl n (afterCalls call m e) =
      some ((List.range n).map fun i => rowsAt call f P e (m + i * (Nx * Ny)) Nyl Nx Nxl) := by
  induction n with
  | zero => intro m; simp [fineLoop]
  | succ n ih =>
    intro m
    have hb : Nx * (Ny - Nyl) ≤ Nx * Ny := Nat.mul_le_mul_left _ (Nat.sub_le _ _)
    have c1 : (Nx : ℤ) * ((Ny : ℤ) - (Nyl : ℤ)) = ((Nx * (Ny - Nyl) : ℕ) : ℤ) := by
      rw [Nat.cast_mul, Nat.cast_sub hy]
    have hm : m + Nyl * Nx + Nx * (Ny - Nyl) = m + Nx * Ny := by
      have : Nyl * Nx + Nx * (Ny - Nyl) = Nx * Ny := by
        rw [Nat.mul_comm Nyl, ← Nat.mul_add, Nat.add_sub_cancel' hy]
      omega
    rw [fineLoop_of (by rw [c1, int_nat (by omega)]) (fineRows_eq h P he hx hx0 Nyl m) n (rest :=
      (List.range n).map fun i => rowsAt call f P e (m + Nx * Ny + i * (Nx * Ny)) Nyl Nx Nxl)]
    · rw [List.range_succ_eq_map, List.map_cons, List.map_map]
      simp only [Nat.zero_mul, Nat.add_zero]
      congr 2
      apply List.map_congr_left
      intro i _
      simp only [Function.comp]
      congr 1
      rw [Nat.succ_mul]; ring
    · rw [ofInt_natCast, h.jump_after he _ _ (by omega), hm, ih]

theorem section0_nat {N c d : Nat} (h : (c + 1) * N < 2 ^ 31) (hc : c + 1 < 2 ^ 31) :
    section0 N c d = some (((c * N / d : ℕ) : ℤ), (((c + 1) * N / d : ℕ) : ℤ)) := by
  have h1 : c * N ≤ (c + 1) * N := Nat.mul_le_mul_right _ (by omega)
  have : ∀ {p next q : ℤ}, int ((c : ℤ) * N) = some p → int ((c : ℤ) + 1) = some next → int (next * N) = some q →
      section0 N c d = some (p.tdiv d, q.tdiv d) := by
    intro p next q h1 h2 h3
    simp only [section0, h1, h2, h3, Option.bind_eq_bind, Option.bind_some, Option.pure_def]
  rw [this (p := ((c * N : ℕ) : ℤ)) (next := ((c + 1 : ℕ) : ℤ)) (q := (((c + 1) * N : ℕ) : ℤ)), tdiv_nat, tdiv_nat]
  · rw [← Nat.cast_mul, int_nat (by omega)]
  · rw [show (c : ℤ) + 1 = ((c + 1 : ℕ) : ℤ) by push_cast; rfl, int_nat hc]
  · rw [← Nat.cast_mul, int_nat h]

theorem fineRank_of {P : ℚ} {R : σ} {Nx Ny dx dy cx cy x0 x1 y0 y1 a skip : ℤ} {N : Nat} {l : List (List (List Bool))}
    (hx : section0 Nx cx dx = some (x0, x1)) (hy : section0 Ny cy dy = some (y0, y1)) (h1 : int (Nx * y0) = some a)
    (h2 : int (a + x0) = some skip)
    (h3 : fineLoop A P Nx Ny (x1 - x0) (y1 - y0) N (A.jump R (BitVec.ofInt 64 skip)) = some l) :
    fineRank A P R Nx Ny N dx dy cx cy = some ((x0, y0), l) := by
  simp only [fineRank, hx, hy, h1, h2, h3, Option.bind_eq_bind, Option.bind_some, Option.pure_def]

theorem fineRank_eq (h : Lawful A call f ok) (P : ℚ) {e : σ} (he : ok e) {Nx Ny N dx dy cx cy : Nat}
    (hcx : cx < dx) (hcy : cy < dy) (hdx : dx * Nx < 2 ^ 31) (hdy : dy * Ny < 2 ^ 31) (hdx' : dx < 2 ^ 31)
    (hdy' : dy < 2 ^ 31) (hNx : Nx < 2 ^ 31) (hxy : Nx * (Ny + 1) < 2 ^ 31) :
    fineRank A P e Nx Ny N dx dy cx cy = some ((((cx * Nx / dx : ℕ) : ℤ), ((cy * Ny / dy : ℕ) : ℤ)),
      (List.range N).map fun i => rowsAt call f P e (Nx * (cy * Ny / dy) + cx * Nx / dx + i * (Nx * Ny))
        ((cy + 1) * Ny / dy - cy * Ny / dy) Nx ((cx + 1) * Nx / dx - cx * Nx / dx)) := by
  have hx1 : (cx + 1) * Nx ≤ dx * Nx := Nat.mul_le_mul_right _ hcx
  have hy1 : (cy + 1) * Ny ≤ dy * Ny := Nat.mul_le_mul_right _ hcy
  have b1 : cx * Nx / dx ≤ Nx := div_le_of_lt hcx.le
  have b2 : (cx + 1) * Nx / dx ≤ Nx := div_le_of_lt hcx
  have b3 : cy * Ny / dy ≤ Ny := div_le_of_lt hcy.le
  have b4 : (cy + 1) * Ny / dy ≤ Ny := div_le_of_lt hcy
  have m1 : cx * Nx / dx ≤ (cx + 1) * Nx / dx := Nat.div_le_div_right (Nat.mul_le_mul_right _ (by omega))
  have m2 : cy * Ny / dy ≤ (cy + 1) * Ny / dy := Nat.div_le_div_right (Nat.mul_le_mul_right _ (by omega))
  have hm : Nx * (Ny + 1) = Nx * Ny + Nx := by ring
  have b5 : Nx * (cy * Ny / dy) ≤ Nx * Ny := Nat.mul_le_mul_left _ b3
  have hsx := section0_nat (N := Nx) (c := cx) (d := dx) (by omega) (by omega)
  have hsy := section0_nat (N := Ny) (c := cy) (d := dy) (by omega) (by omega)
  generalize cx * Nx / dx = x0 at *
  generalize (cx + 1) * Nx / dx = x1 at *
  generalize cy * Ny / dy = y0 at *
  generalize (cy + 1) * Ny / dy = y1 at *
  have hl := fineLoop_eq h P he (Nx := Nx) (Ny := Ny) (Nxl := x1 - x0) (Nyl := y1 - y0) (by omega) (by omega) hNx
    (by omega) N (Nx * y0 + x0)
  have hj := h.jump_after he 0 (Nx * y0 + x0) (by omega)
  rw [Nat.zero_add] at hj
  refine fineRank_of hsx hsy (a := ((Nx * y0 : ℕ) : ℤ)) (skip := ((Nx * y0 + x0 : ℕ) : ℤ)) ?_ ?_ ?_
  · rw [← Nat.cast_mul, int_nat (by omega)]
  · rw [← Nat.cast_add, int_nat (by omega)]
  · rw [ofInt_natCast, show A.jump e = A.jump (afterCalls call 0 e) from rfl, hj,
      show (x1 : ℤ) - x0 = ((x1 - x0 : ℕ) : ℤ) by omega, show (y1 : ℤ) - y0 = ((y1 - y0 : ℕ) : ℤ) by omega, hl]

/-- A part of a lattice. -/
theorem rowsAt_part (P : ℚ) (e : σ) {m Nx Ny x0 y0 w n : Nat} (hx : x0 + w ≤ Nx) (hy : y0 + n ≤ Ny) :
    rowsAt call f P e (Nx * y0 + x0 + m) n Nx w =
      (((rowsAt call f P e m Ny Nx Nx).drop y0).take n).map fun row => (row.drop x0).take w := by
  apply List.ext_getElem?
  intro y
  by_cases hyn : y < n
  · simp only [rowsAt, List.getElem?_map, List.getElem?_take, List.getElem?_drop, List.getElem?_range, hyn,
      show y0 + y < Ny by omega, if_true, Option.map_some]
    congr 1
    apply List.ext_getElem?
    intro x
    by_cases hxw : x < w
    · simp only [List.getElem?_map, List.getElem?_take, List.getElem?_drop, List.getElem?_range', hxw,
        show x0 + x < Nx by omega, if_true, Option.map_some]
      congr 2
      ring
    · rw [List.getElem?_eq_none (by simp; omega), List.getElem?_eq_none (by simp; omega)]
  · rw [List.getElem?_eq_none (by simp [rowsAt]; omega), List.getElem?_eq_none (by simp; omega)]

/-! the embarrassingly parallel program -/

/-- The realisations of one rank from number `i` on. -/
def share (N size r i : Nat) : List Nat := (List.range' i (N - i)).filter fun k => k % size = r

theorem share_step {N size r i : Nat} (hi : i < N) (hr : r < size) (hm : i % size = r) :
    share N size r i = i :: share N size r (i + size) := by
  have hnone : ∀ m, m ≤ size - 1 → (List.range' (i + 1) m).filter (fun k => decide (k % size = r)) = [] := by
    intro m hle
    rw [List.filter_eq_nil_iff]
    intro k hk hc
    rw [List.mem_range'_1] at hk
    have hc : k % size = r := by simpa using hc
    have h1 : (k - i) % size = 0 := by
      rw [← Nat.sub_mod_eq_zero_of_mod_eq (m := k) (n := i) (k := size) (by omega)]
    have h2 : (k - i) % size = k - i := Nat.mod_eq_of_lt (by omega)
    omega
  unfold share
  obtain ⟨m, hm'⟩ : ∃ m, N - i = m + 1 := ⟨N - i - 1, by omega⟩
  rw [hm', List.range'_succ, List.filter_cons_of_pos (by simpa using hm)]
  congr 1
  by_cases hc : i + size ≤ N
  · rw [show m = size - 1 + (N - (i + size)) by omega]
    rw [← List.range'_append_1, List.filter_append, hnone _ le_rfl, List.nil_append,
      show i + 1 + (size - 1) = i + size by omega]
  · rw [hnone m (by omega), show N - (i + size) = 0 by omega]
    rfl

theorem percolationLoop_of {P : ℚ} {Nx Ny N size i sweep skip next : ℤ} {l : List (List Bool)} {R R' : σ} {fuel : Nat}
    {rest : List (ℤ × List (List Bool))} (hi : i < N)
    (hs : fillRows A P Ny.toNat Nx.toNat R = (l, R')) (h1 : int (Nx * Ny) = some sweep)
    (h2 : int ((size - 1) * sweep) = some skip) (h3 : int (i + size) = some next)
    (hr : percolationLoop A P Nx Ny N size fuel next (A.jump R' (BitVec.ofInt 64 skip)) = some rest) :
    percolationLoop A P Nx Ny N size (fuel + 1) i R = some ((i, l) :: rest) := by
  simp only [percolationLoop, hi, if_true, hs, h1, h2, h3, hr, Option.bind_eq_bind, Option.bind_some, Option.pure_def]

theorem percolationLoop_eq (h : Lawful A call f ok) (P : ℚ) {e : σ} (he : ok e) {Nx Ny N size r : Nat} (hr : r < size)
    (hb : size * (Nx * Ny) < 2 ^ 31) (hN : N + size < 2 ^ 31) : ∀ (fuel i : Nat), 0 < fuel → N < fuel + i → i % size = r →
    percolationLoop A P Nx Ny N size fuel (i : ℤ) (afterCalls call (i * (Nx * Ny)) e) =
      some ((share N size r i).map fun k : ℕ => ((k : ℤ), rowsAt call f P e (k * (Nx * Ny)) Nx Ny Ny)) := by
  intro fuel
  induction fuel with
  | zero => intro i h0; omega
  | succ fuel ih =>
    intro i _ h1 hm
    by_cases hi : i < N
    · have hle : Nx * Ny ≤ size * (Nx * Ny) := Nat.le_mul_of_pos_left _ (by omega)
      have hle' : (size - 1) * (Nx * Ny) ≤ size * (Nx * Ny) := Nat.mul_le_mul_right _ (by omega)
      rw [share_step hi hr hm, List.map_cons]
      refine percolationLoop_of (sweep := ((Nx * Ny : ℕ) : ℤ)) (skip := (((size - 1) * (Nx * Ny) : ℕ) : ℤ))
        (next := ((i + size : ℕ) : ℤ)) (by exact_mod_cast hi) (by
          rw [Int.toNat_natCast, Int.toNat_natCast]; exact fillRows_eq h P e Ny Nx _) ?_ ?_ ?_ ?_
      · rw [← Nat.cast_mul, int_nat (by omega)]
      · rw [show ((size : ℤ) - 1) = ((size - 1 : ℕ) : ℤ) by omega, ← Nat.cast_mul, int_nat (by omega)]
      · rw [← Nat.cast_add, int_nat (by omega)]
      · rw [ofInt_natCast, h.jump_after he _ _ (by omega)]
        have hc : i * (Nx * Ny) + Nx * Ny + (size - 1) * (Nx * Ny) = (i + size) * (Nx * Ny) := by
          have : size = size - 1 + 1 := by omega
          conv_rhs => rw [this]
          ring
        rw [hc, ih (i + size) (by omega) (by omega) (by rw [Nat.add_mod_right]; exact hm)]
    · have : share N size r i = [] := by unfold share; rw [show N - i = 0 by omega]; rfl
      rw [this, percolationLoop, if_neg (by exact_mod_cast hi)]
      rfl

theorem percolationRank_eq (h : Lawful A call f ok) (P : ℚ) {e : σ} (he : ok e) {Nx Ny N size r : Nat} (hr : r < size)
    (hb : size * (Nx * Ny) < 2 ^ 31) (hN : N + size < 2 ^ 31) :
    percolationRank A P e Nx Ny N size r =
      some (((List.range N).filter fun k => k % size = r).map fun k : ℕ =>
        ((k : ℤ), rowsAt call f P e (k * (Nx * Ny)) Nx Ny Ny)) := by
  have hle : Nx * Ny ≤ size * (Nx * Ny) := Nat.le_mul_of_pos_left _ (by omega)
  have hle' : r * (Nx * Ny) ≤ size * (Nx * Ny) := Nat.mul_le_mul_right _ hr.le
  have : ∀ {sweep skip : ℤ}, int ((Nx : ℤ) * Ny) = some sweep → int ((r : ℤ) * sweep) = some skip →
      percolationRank A P e Nx Ny N size r =
        percolationLoop A P Nx Ny N size (N + 1) r (A.jump e (BitVec.ofInt 64 skip)) := by
    intro sweep skip h1 h2
    simp only [percolationRank, h1, h2, Option.bind_eq_bind, Option.bind_some, Int.toNat_natCast]
  have hj := h.jump_after he 0 (r * (Nx * Ny)) (by omega)
  rw [Nat.zero_add] at hj
  rw [this (sweep := ((Nx * Ny : ℕ) : ℤ)) (skip := ((r * (Nx * Ny) : ℕ) : ℤ)), ofInt_natCast,
    show A.jump e = A.jump (afterCalls call 0 e) from rfl, hj,
    percolationLoop_eq h P he hr hb hN (N + 1) r (by omega) (by omega) (Nat.mod_eq_of_lt hr)]
  · congr 2
    -- numbers below `r` are not congruent to `r`
    unfold share
    have hz : ∀ m, m ≤ r → (List.range m).filter (fun k => decide (k % size = r)) = [] := by
      intro m hm
      rw [List.filter_eq_nil_iff]
      intro k hk hc
      have hk := List.mem_range.1 hk
      have hc : k % size = r := by simpa using hc
      rw [Nat.mod_eq_of_lt (by omega)] at hc
      omega
    by_cases hrN : r ≤ N
    · have := List.range'_append_1 (s := 0) (m := r) (n := N - r)
      rw [Nat.zero_add, show r + (N - r) = N by omega, ← List.range_eq_range', ← List.range_eq_range'] at this
      rw [← this, List.filter_append, hz r le_rfl, List.nil_append]
    · rw [hz N (by omega), show N - r = 0 by omega]
      rfl
  · rw [← Nat.cast_mul, int_nat (by omega)]
  · rw [← Nat.cast_mul, int_nat (by omega)]

/-! ### the yarn engines -/

theorem yarn_u (K : Kind) {F : Fmt} (hp : 1 ≤ F.p) : ∃ g : Nat → ℚ, ∀ s,
    (yarn K F).u s = (g (((MRG.callYarn K.modulus K.gen s).1.getD 0).toNat), (MRG.callYarn K.modulus K.gen s).2) := by
  set T : Uniform.Traits := ⟨F, 1, K.modulus - 1⟩ with hT
  have hm : 0 < K.modulus - 1 ∧ K.modulus - 1 < 2 ^ 64 := by cases K <;> decide
  have hc : T.callsNeeded = 1 := T.callsNeeded_one hm.2 hm.1 hp rfl
  refine ⟨fun x => F.rnd (T.addin (x - 0) * T.coNorm), fun s => ?_⟩
  show Uniform.uniformco F (yarnGen K) s = _
  have : (yarnGen K).max - (yarnGen K).min = K.modulus - 1 := rfl
  unfold Uniform.uniformco
  rw [this]
  show T.co (yarnGen K) s = _
  unfold Uniform.Traits.co Uniform.Traits.variate
  rw [hc]
  rfl

end Trng.Examples
