import Mathlib.Data.Fintype.Card
import Mathlib.Logic.Relation
import Mathlib.Algebra.BigOperators.Group.Finset.Basic
import Mathlib.Algebra.BigOperators.Group.Finset.Piecewise
import Mathlib.Algebra.BigOperators.Ring.Finset
import Mathlib.Data.Real.Basic
import Mathlib.Data.Fintype.BigOperators
import Mathlib.Data.Fintype.Pi
import Mathlib.Data.Fin.Tuple.Basic
import Mathlib.Algebra.BigOperators.Fin
import Mathlib.Tactic.LinearCombination
import Mathlib.Tactic.Ring
import Mathlib.Tactic.Linarith

/-!
The growth of a cluster on an arbitrary finite graph: what `wolffstep` does, without coordinates.  `A v` says that site `v` had the
spin of the first site; `F` is the set of sites flipped so far.
-/
namespace Trng.Wolff

variable {V : Type} [DecidableEq V] {ρ : Type}

structure St (V ρ : Type) where
  Q : List V
  F : Finset V
  R : ρ

variable (A : V → Prop) [DecidablePred A] (B : ρ → Bool × ρ) (nb : V → List V)

def test (z : St V ρ) (v : V) : St V ρ :=
  if A v ∧ v ∉ z.F then
    if (B z.R).1 then ⟨z.Q ++ [v], insert v z.F, (B z.R).2⟩ else { z with R := (B z.R).2 }
  else z

def loop : Nat → St V ρ → Option (St V ρ)
  | 0, _ => none
  | n + 1, z => match z.Q with
    | [] => some z
    | u :: rest => loop n ((nb u).foldl (test A B) { z with Q := rest })

/-- What holds all the time: the cluster is connected to `r`, contains the queue, and has sites with the old spin only. -/
structure Inv (r : V) (z : St V ρ) : Prop where
  start : r ∈ z.F
  sub : ∀ v ∈ z.F, A v
  queue : ∀ v ∈ z.Q, v ∈ z.F
  conn : ∀ v ∈ z.F, Relation.ReflTransGen (fun a b => b ∈ nb a ∧ A b ∧ b ∈ z.F) r v

theorem conn_mono {r v : V} {F G : Finset V} (h : F ⊆ G)
    (hc : Relation.ReflTransGen (fun a b => b ∈ nb a ∧ A b ∧ b ∈ F) r v) :
    Relation.ReflTransGen (fun a b => b ∈ nb a ∧ A b ∧ b ∈ G) r v :=
  Relation.ReflTransGen.mono (p := fun a b => b ∈ nb a ∧ A b ∧ b ∈ G) (fun _ _ ⟨h1, h2, h3⟩ => ⟨h1, h2, h h3⟩) _ _ hc

theorem test_inv {r u v : V} {z : St V ρ} (h : Inv A nb r z) (hu : u ∈ z.F) (hv : v ∈ nb u) :
    Inv A nb r (test A B z v) ∧ z.F ⊆ (test A B z v).F := by
  unfold test
  split
  · next hA =>
    split
    · have hs : z.F ⊆ insert v z.F := Finset.subset_insert _ _
      refine ⟨⟨hs h.start, ?_, ?_, ?_⟩, hs⟩
      · intro w hw
        rcases Finset.mem_insert.1 hw with rfl | hw
        · exact hA.1
        · exact h.sub _ hw
      · intro w hw
        rcases List.mem_append.1 hw with hw | hw
        · exact hs (h.queue _ hw)
        · rw [List.mem_singleton.1 hw]; exact Finset.mem_insert_self _ _
      · intro w hw
        rcases Finset.mem_insert.1 hw with rfl | hw
        · exact (conn_mono A nb hs (h.conn u hu)).tail ⟨hv, hA.1, Finset.mem_insert_self _ _⟩
        · exact conn_mono A nb hs (h.conn w hw)
    · exact ⟨⟨h.start, h.sub, h.queue, h.conn⟩, subset_rfl⟩
  · exact ⟨h, subset_rfl⟩

theorem fold_inv {r u : V} (l : List V) (hl : ∀ v ∈ l, v ∈ nb u) : ∀ {z : St V ρ}, Inv A nb r z → u ∈ z.F →
    Inv A nb r (l.foldl (test A B) z) := by
  induction l with
  | nil => exact fun h _ => h
  | cons v l ih =>
    intro z h hu
    obtain ⟨h1, h2⟩ := test_inv A B nb h hu (hl v List.mem_cons_self)
    exact ih (fun w hw => hl w (List.mem_cons_of_mem _ hw)) h1 (h2 hu)

theorem test_card (z : St V ρ) (v : V) :
    (test A B z v).Q.length + z.F.card = z.Q.length + (test A B z v).F.card := by
  unfold test
  split
  · next hA =>
    split
    · rw [Finset.card_insert_of_notMem hA.2]; simp; omega
    · rfl
  · rfl

theorem fold_card (l : List V) (z : St V ρ) :
    (l.foldl (test A B) z).Q.length + z.F.card = z.Q.length + (l.foldl (test A B) z).F.card := by
  induction l generalizing z with
  | nil => rfl
  | cons v l ih =>
    have h1 := ih (test A B z v)
    have h2 := test_card A B z v
    rw [List.foldl_cons]
    omega

/-- The loop ends after as many turns as there are sites, at most. -/
theorem loop_total [Fintype V] {r : V} : ∀ (n : Nat) (z : St V ρ), Inv A nb r z →
    z.Q.length + Fintype.card V + 1 ≤ n + z.F.card →
    ∃ z', loop A B nb n z = some z' ∧ Inv A nb r z' ∧ z'.Q = [] := by
  intro n
  induction n with
  | zero => intro z _ h; have := Finset.card_le_univ z.F; omega
  | succ n ih =>
    intro z h hn
    unfold loop
    match hQ : z.Q with
    | [] => exact ⟨z, rfl, h, hQ⟩
    | u :: rest =>
      have hu : u ∈ z.F := h.queue u (by rw [hQ]; exact List.mem_cons_self)
      have h' : Inv A nb r { z with Q := rest } :=
        ⟨h.start, h.sub, fun v hv => h.queue v (by rw [hQ]; exact List.mem_cons_of_mem _ hv), h.conn⟩
      refine ih _ (fold_inv A B nb (nb u) (fun _ h => h) h' hu) ?_
      have h1 := fold_card A B (nb u) { z with Q := rest }
      rw [hQ] at hn
      simp only [List.length_cons] at hn h1
      omega

/-! ### probabilities -/

/-- Reading the results of the draws from a list. -/
def bits : List Bool → Bool × List Bool := fun l => (l.headD false, l.tail)

/-- The probability that the flipped sites are those of `C`, if the pending tests of the current site are `pend`; `n` bounds the
length of the computation. -/
def prob (p : ℝ) (C : Finset V) : Nat → List V → List V → Finset V → ℝ
  | 0, _, _, _ => 0
  | n + 1, v :: pend, Q, F =>
    if A v ∧ v ∉ F then p * prob p C n pend (Q ++ [v]) (insert v F) + (1 - p) * prob p C n pend Q F
    else prob p C n pend Q F
  | n + 1, [], u :: Q, F => prob p C n (nb u) Q F
  | _ + 1, [], [], F => if F = C then 1 else 0

theorem prob_zero {p : ℝ} {C : Finset V} : ∀ (n : Nat) (pend Q : List V) (F : Finset V), ¬ F ⊆ C → prob A nb p C n pend Q F = 0 := by
  intro n
  induction n with
  | zero => intros; rfl
  | succ n ih =>
    intro pend Q F hF
    match pend, Q with
    | v :: pend, Q =>
      unfold prob
      rw [ih pend Q F hF, ih pend (Q ++ [v]) (insert v F) (fun h => hF ((Finset.subset_insert _ _).trans h))]
      split <;> ring
    | [], u :: Q => exact ih _ _ _ hF
    | [], [] =>
      unfold prob
      rw [if_neg]; rintro rfl; exact hF subset_rfl

/-- The number of tests in `l` that must fail. -/
def cnt (C : Finset V) (l : List V) : Nat := l.countP fun v => decide (A v ∧ v ∉ C)

/-- The number of tests to come that must fail if the cluster is to be `C`. -/
def todo (C : Finset V) (pend Q : List V) (F : Finset V) : Nat :=
  cnt A C pend + (Q.map fun u => cnt A C (nb u)).sum + ∑ u ∈ C \ F, cnt A C (nb u)

theorem prob_swap (A' : V → Prop) [DecidablePred A'] {p : ℝ} {C : Finset V} (hA : ∀ v ∈ C, A v) (hA' : ∀ v ∈ C, A' v) :
    ∀ (n : Nat) (pend Q : List V) (F : Finset V), F ⊆ C →
    prob A nb p C n pend Q F * (1 - p) ^ todo A' nb C pend Q F = prob A' nb p C n pend Q F * (1 - p) ^ todo A nb C pend Q F := by
  intro n
  induction n with
  | zero => intros; simp [prob]
  | succ n ih =>
    intro pend Q F hF
    match pend, Q with
    | v :: pend, Q =>
      have hc : ∀ (D : V → Prop) [DecidablePred D], todo D nb C (v :: pend) Q F =
          todo D nb C pend Q F + if D v ∧ v ∉ C then 1 else 0 := by
        intro D _
        unfold todo cnt
        rw [List.countP_cons]
        simp only [decide_eq_true_eq]
        split <;> omega
      rw [hc A, hc A']
      unfold prob
      by_cases hv : v ∈ C
      · rw [if_neg (c := A v ∧ v ∉ C) (fun h => h.2 hv), if_neg (c := A' v ∧ v ∉ C) (fun h => h.2 hv), Nat.add_zero, Nat.add_zero]
        by_cases hvF : v ∈ F
        · rw [if_neg (fun h => h.2 hvF), if_neg (fun h => h.2 hvF)]
          exact ih _ _ _ hF
        · rw [if_pos ⟨hA v hv, hvF⟩, if_pos ⟨hA' v hv, hvF⟩]
          have h1 := ih pend Q F hF
          have h2 := ih pend (Q ++ [v]) (insert v F) (Finset.insert_subset hv hF)
          have ht : ∀ (D : V → Prop) [DecidablePred D], todo D nb C pend (Q ++ [v]) (insert v F) = todo D nb C pend Q F := by
            intro D _
            have hs : C \ F = insert v (C \ insert v F) := by
              ext w
              simp only [Finset.mem_sdiff, Finset.mem_insert]
              constructor
              · intro hw
                by_cases hwv : w = v
                · exact Or.inl hwv
                · exact Or.inr ⟨hw.1, fun h => h.elim hwv hw.2⟩
              · rintro (rfl | hw)
                · exact ⟨hv, hvF⟩
                · exact ⟨hw.1, fun h => hw.2 (Or.inr h)⟩
            unfold todo
            rw [hs, Finset.sum_insert (by simp), List.map_append, List.sum_append]
            simp only [List.map_cons, List.map_nil, List.sum_cons, List.sum_nil]
            omega
          rw [ht A, ht A'] at h2
          linear_combination p * h2 + (1 - p) * h1
      · have hvF : v ∉ F := fun h => hv (hF h)
        have h1 := ih pend Q F hF
        have h0 : ∀ (D : V → Prop) [DecidablePred D], prob D nb p C n pend (Q ++ [v]) (insert v F) = 0 := fun D _ =>
          prob_zero D nb n _ _ _ (fun h => hv (h (Finset.mem_insert_self _ _)))
        rw [h0 A, h0 A']
        simp only [hv, hvF, not_false_eq_true, and_true]
        by_cases h2 : A v <;> by_cases h3 : A' v <;>
          simp only [h2, h3, if_true, if_false, pow_succ, Nat.add_zero, mul_zero, zero_add] <;>
          first | exact h1 | linear_combination (1 - p) * h1 | linear_combination (1 - p) ^ 2 * h1
    | [], u :: Q =>
      have ht : ∀ (D : V → Prop) [DecidablePred D], todo D nb C [] (u :: Q) F = todo D nb C (nb u) Q F := by
        intro D _
        unfold todo
        simp [cnt]
        try omega
      rw [ht A, ht A']
      exact ih _ _ _ hF
    | [], [] =>
      unfold prob
      by_cases h : F = C
      · subst h
        simp [todo, cnt]
      · rw [if_neg h]; simp

/-- The sum over the results of `n` independent draws. -/
def wsum (p : ℝ) : Nat → (List Bool → ℝ) → ℝ
  | 0, f => f []
  | n + 1, f => p * wsum p n (fun l => f (true :: l)) + (1 - p) * wsum p n (fun l => f (false :: l))

theorem wsum_const (p c : ℝ) (n : Nat) : wsum p n (fun _ => c) = c := by
  induction n with
  | zero => rfl
  | succ n ih => unfold wsum; rw [ih]; ring

theorem wsum_add (p : ℝ) (n : Nat) (f g : List Bool → ℝ) : wsum p n (fun l => f l + g l) = wsum p n f + wsum p n g := by
  induction n generalizing f g with
  | zero => rfl
  | succ n ih => unfold wsum; rw [ih, ih]; ring

theorem wsum_sum {ι : Type} (p : ℝ) (n : Nat) (s : Finset ι) (f : ι → List Bool → ℝ) :
    wsum p n (fun l => ∑ i ∈ s, f i l) = ∑ i ∈ s, wsum p n (f i) := by
  classical
  induction s using Finset.induction_on with
  | empty => simp [wsum_const]
  | insert a s ha ih => simp only [Finset.sum_insert ha]; rw [wsum_add, ih]

theorem wsum_eq (p : ℝ) (n : Nat) (f : List Bool → ℝ) :
    wsum p n f = ∑ b : Fin n → Bool, (∏ i, if b i then p else 1 - p) * f (List.ofFn b) := by
  induction n generalizing f with
  | zero => simp [wsum]
  | succ n ih =>
    unfold wsum
    rw [ih, ih, ← (Fin.consEquiv fun _ => Bool).sum_comp, Fintype.sum_prod_type]
    simp only [Fin.consEquiv_apply, Fin.prod_univ_succ, Fin.cons_zero, Fin.cons_succ, List.ofFn_succ, Fintype.sum_bool, if_true,
      Bool.false_eq_true, if_false, Finset.mul_sum, mul_assoc]

/-- The loop with the tests of the current site still to be made. -/
def run (A : V → Prop) [DecidablePred A] (nb : V → List V) : Nat → List V → List V → Finset V → List Bool → Option (Finset V)
  | 0, _, _, _, _ => none
  | n + 1, v :: pend, Q, F, R =>
    if A v ∧ v ∉ F then
      if (bits R).1 then run A nb n pend (Q ++ [v]) (insert v F) (bits R).2 else run A nb n pend Q F (bits R).2
    else run A nb n pend Q F R
  | n + 1, [], u :: Q, F, R => run A nb n (nb u) Q F R
  | _ + 1, [], [], F, _ => some F

/-- At most so many draws. -/
def draws (nb : V → List V) [Fintype V] (pend Q : List V) (F : Finset V) : Nat :=
  pend.length + (Q.map fun u => (nb u).length).sum + ∑ u ∈ Finset.univ \ F, (nb u).length

theorem run_prob [Fintype V] (p : ℝ) (C : Finset V) : ∀ (n m : Nat) (pend Q : List V) (F : Finset V), draws nb pend Q F ≤ m →
    wsum p m (fun R => if run A nb n pend Q F R = some C then 1 else 0) = prob A nb p C n pend Q F := by
  intro n
  induction n with
  | zero => intros; simp [run, prob, wsum_const]
  | succ n ih =>
    intro m pend Q F hm
    match pend, Q with
    | v :: pend, Q =>
      have hd : draws nb (v :: pend) Q F = draws nb pend Q F + 1 := by unfold draws; simp only [List.length_cons]; omega
      rw [hd] at hm
      unfold prob run
      by_cases hv : A v ∧ v ∉ F
      · simp only [if_pos hv]
        obtain ⟨m, rfl⟩ : ∃ k, m = k + 1 := ⟨m - 1, by omega⟩
        unfold wsum
        have h1 : draws nb pend (Q ++ [v]) (insert v F) = draws nb pend Q F := by
          have hs : Finset.univ \ F = insert v (Finset.univ \ insert v F) := by
            ext w
            simp only [Finset.mem_sdiff, Finset.mem_insert, Finset.mem_univ, true_and, not_or]
            constructor
            · intro hw
              by_cases hwv : w = v
              · exact Or.inl hwv
              · exact Or.inr ⟨hwv, hw⟩
            · rintro (rfl | hw)
              · exact hv.2
              · exact hw.2
          unfold draws
          rw [hs, Finset.sum_insert (by simp), List.map_append, List.sum_append]
          simp only [List.map_cons, List.map_nil, List.sum_cons, List.sum_nil]
          omega
        rw [← ih m pend (Q ++ [v]) (insert v F) (by omega), ← ih m pend Q F (by omega)]
        rfl
      · simp only [if_neg hv]
        exact ih m pend Q F (by omega)
    | [], u :: Q =>
      unfold prob run
      refine ih m _ _ _ (le_trans (le_of_eq ?_) hm)
      unfold draws
      simp only [List.length_nil, List.map_cons, List.sum_cons]
      omega
    | [], [] =>
      unfold prob run
      simp only [Option.some.injEq, wsum_const]

/-- `run` is `loop`, if the source of the draws amounts to a list. -/
theorem run_loop [Fintype V] (K : Nat) (hK : ∀ u, (nb u).length ≤ K) (f : ρ → List Bool)
    (hf : ∀ R, (B R).1 = (bits (f R)).1 ∧ f (B R).2 = (bits (f R)).2) :
    ∀ (n : Nat) (z z' : St V ρ), loop A B nb n z = some z' →
    ∀ m, n * (K + 1) ≤ m → run A nb m [] z.Q z.F (f z.R) = some z'.F := by
  intro n
  induction n with
  | zero => intro z z' h; exact absurd h (by simp [loop])
  | succ n ih =>
    intro z z' h m hm
    obtain ⟨m, rfl⟩ : ∃ k, m = k + 1 := ⟨m - 1, by have : 1 ≤ (n + 1) * (K + 1) := Nat.mul_pos (by omega) (by omega); omega⟩
    unfold loop at h
    match hQ : z.Q with
    | [] =>
      rw [hQ] at h
      simp only [Option.some.injEq] at h
      subst h
      unfold run
      rfl
    | u :: rest =>
      rw [hQ] at h
      simp only at h
      unfold run
      have key : ∀ (l : List V) (y : St V ρ) (k : Nat), l.length + n * (K + 1) ≤ k →
          loop A B nb n (l.foldl (test A B) y) = some z' → run A nb k l y.Q y.F (f y.R) = some z'.F := by
        intro l
        induction l with
        | nil => intro y k hk hy; exact ih y z' hy k (by simpa using hk)
        | cons v l ihl =>
          intro y k hk hy
          obtain ⟨k, rfl⟩ : ∃ j, k = j + 1 := ⟨k - 1, by simp only [List.length_cons] at hk; omega⟩
          have h2 := ihl (test A B y v) k (by simp only [List.length_cons] at hk; omega) hy
          unfold run
          unfold test at h2
          rw [← (hf y.R).1, ← (hf y.R).2]
          split
          · next hv =>
            rw [if_pos hv] at h2
            split
            · next hb => rw [if_pos hb] at h2; exact h2
            · next hb => rw [if_neg hb] at h2; exact h2
          · next hv => rw [if_neg hv] at h2; exact h2
      refine key (nb u) { z with Q := rest } m ?_ h
      have := hK u
      rw [Nat.add_mul] at hm
      omega

/-- A cluster with a site that had another spin is impossible. -/
theorem prob_zero_of_not {p : ℝ} {C : Finset V} (hC : ∃ v ∈ C, ¬ A v) : ∀ (n : Nat) (pend Q : List V) (F : Finset V),
    (∀ v ∈ F, A v) → prob A nb p C n pend Q F = 0 := by
  intro n
  induction n with
  | zero => intros; rfl
  | succ n ih =>
    intro pend Q F hF
    match pend, Q with
    | v :: pend, Q =>
      unfold prob
      split
      · next hv =>
        rw [ih pend Q F hF, ih pend (Q ++ [v]) (insert v F) (fun w hw => by
          rcases Finset.mem_insert.1 hw with rfl | hw
          · exact hv.1
          · exact hF w hw)]
        ring
      · exact ih pend Q F hF
    | [], u :: Q => exact ih _ _ _ hF
    | [], [] =>
      unfold prob
      rw [if_neg]
      rintro rfl
      obtain ⟨v, h1, h2⟩ := hC
      exact h2 (hF v h1)

theorem prob_nonneg {p : ℝ} (h0 : 0 ≤ p) (h1 : p ≤ 1) (C : Finset V) : ∀ (n : Nat) (pend Q : List V) (F : Finset V),
    0 ≤ prob A nb p C n pend Q F := by
  intro n
  induction n with
  | zero => intros; exact le_rfl
  | succ n ih =>
    intro pend Q F
    match pend, Q with
    | v :: pend, Q =>
      unfold prob
      split
      · exact add_nonneg (mul_nonneg h0 (ih _ _ _)) (mul_nonneg (by linarith) (ih _ _ _))
      · exact ih _ _ _
    | [], u :: Q => exact ih _ _ _
    | [], [] => unfold prob; split <;> norm_num

/-- With positive probability nothing more is flipped. -/
theorem prob_pos {p : ℝ} (h0 : 0 ≤ p) (h1 : p < 1) : ∀ (n : Nat) (pend Q : List V) (F : Finset V),
    pend.length + (Q.map fun u => (nb u).length + 1).sum < n → 0 < prob A nb p F n pend Q F := by
  intro n
  induction n with
  | zero => intro _ _ _ h; omega
  | succ n ih =>
    intro pend Q F h
    match pend, Q with
    | v :: pend, Q =>
      unfold prob
      have h2 := ih pend Q F (by simp only [List.length_cons] at h; omega)
      split
      · exact add_pos_of_nonneg_of_pos (mul_nonneg h0 (prob_nonneg A nb h0 h1.le _ _ _ _ _)) (mul_pos (by linarith) h2)
      · exact h2
    | [], u :: Q =>
      refine ih _ _ _ ?_
      simp only [List.length_nil, List.map_cons, List.sum_cons] at h
      omega
    | [], [] => unfold prob; simp

end Trng.Wolff
