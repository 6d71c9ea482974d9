import Verif.Proofs.Discrete
import Mathlib.Algebra.Order.BigOperators.Group.Finset
import Mathlib.Algebra.BigOperators.Ring.Finset
import Mathlib.Tactic.LinearCombination
import Mathlib.Data.List.Nodup

/-! Helper lemmas for fast_discrete_dist: the alias construction in exact arithmetic. -/
set_option linter.unusedSectionVars false
namespace Trng.Discrete

variable {α : Type} [Field α] [LinearOrder α] [IsStrictOrderedRing α]

/-- Mass that finished entries (those not in `A`) pass on to `k`. -/
def passed (N : Nat) (A : List Nat) (F : List α) (L : List Nat) (k : Nat) : α :=
  ∑ i ∈ Finset.range N, if i ∉ A ∧ L.getD i 0 = k then 1 - F.getD i 0 else 0

def balance (N : Nat) (A : List Nat) (F : List α) : α := ∑ i ∈ Finset.range N, if i ∈ A then F.getD i 0 - 1 else 0

structure AliasInv (N : Nat) (q : Nat → α) (S G : List Nat) (F : List α) (L : List Nat) : Prop where
  lenF : F.length = N
  lenL : L.length = N
  nodup : (S ++ G).Nodup
  lt : ∀ i ∈ S ++ G, i < N
  small : ∀ i ∈ S, F.getD i 0 < 1
  large : ∀ i ∈ G, 1 ≤ F.getD i 0
  nonneg : ∀ i, i < N → 0 ≤ F.getD i 0
  done : ∀ i, i < N → i ∉ S ++ G → F.getD i 0 ≤ 1
  target : ∀ i, i < N → L.getD i 0 < N
  mass : ∀ k, k < N → F.getD k 0 + passed N (S ++ G) F L k = q k
  bal : balance N (S ++ G) F = 0

theorem getD_set {β : Type} (l : List β) (i j : Nat) (x d : β) (h : i < l.length) :
    (l.set i x).getD j d = if i = j then x else l.getD j d := by
  rw [List.getD_eq_getElem?_getD, List.getD_eq_getElem?_getD]
  split_ifs with hij
  · subst hij; rw [List.getElem?_set_self h]; rfl
  · rw [List.getElem?_set_ne hij]

theorem step_inv {N : Nat} {q : Nat → α} {j k : Nat} {S G : List Nat} {F : List α} {L : List Nat}
    (h : AliasInv N q (j :: S) (k :: G) F L) {S' G' : List Nat} (hperm : (S' ++ G').Perm (k :: (S ++ G)))
    (hS : ∀ i ∈ S', i ∈ S ∨ (i = k ∧ F.getD k 0 - (1 - F.getD j 0) < 1))
    (hG : ∀ i ∈ G', i ∈ G ∨ (i = k ∧ 1 ≤ F.getD k 0 - (1 - F.getD j 0))) :
    AliasInv N q S' G' (F.set k (F.getD k 0 - (1 - F.getD j 0))) (L.set j k) := by
  have hj : j < N := h.lt j (by simp)
  have hk : k < N := h.lt k (by simp)
  have hn := h.nodup
  rw [List.cons_append, List.nodup_cons] at hn
  have hjS : j ∉ S ∧ j ≠ k ∧ j ∉ G := by
    have := hn.1
    simp only [List.mem_append, List.mem_cons, not_or] at this
    exact this
  have hn2 : (k :: (S ++ G)).Nodup := (List.perm_middle.nodup_iff).1 hn.2
  have hkSG : k ∉ S ++ G := (List.nodup_cons.1 hn2).1
  have hkS : k ∉ S ∧ k ∉ G := by simpa [not_or] using hkSG
  have hA' : ∀ i, i ∈ S' ++ G' ↔ i = k ∨ i ∈ S ∨ i ∈ G := by
    intro i; rw [hperm.mem_iff, List.mem_cons, List.mem_append]
  have hA : ∀ i, i ∈ (j :: S) ++ (k :: G) ↔ i = j ∨ i = k ∨ i ∈ S ∨ i ∈ G := by
    intro i
    simp only [List.mem_append, List.mem_cons]
    tauto
  have gF : ∀ i, (F.set k (F.getD k 0 - (1 - F.getD j 0))).getD i 0 = if k = i then F.getD k 0 - (1 - F.getD j 0) else F.getD i 0 :=
    fun i => getD_set _ _ _ _ _ (by rw [h.lenF]; exact hk)
  have gL : ∀ i, (L.set j k).getD i 0 = if j = i then k else L.getD i 0 :=
    fun i => getD_set _ _ _ _ _ (by rw [h.lenL]; exact hj)
  have hfj := h.small j (by simp)
  have hfj0 := h.nonneg j hj
  have hfk := h.large k (by simp)
  refine ⟨by rw [List.length_set, h.lenF], by rw [List.length_set, h.lenL], (hperm.nodup_iff).2 hn2, ?_, ?_, ?_, ?_, ?_, ?_, ?_, ?_⟩
  · intro i hi
    rcases (hA' i).1 hi with rfl | hi
    · exact hk
    · exact h.lt i ((hA i).2 (by tauto))
  · intro i hi
    rw [gF]
    rcases hS i hi with hi | ⟨rfl, hlt⟩
    · rw [if_neg (by rintro rfl; exact hkS.1 hi)]
      exact h.small i (List.mem_cons_of_mem _ hi)
    · rw [if_pos rfl]; exact hlt
  · intro i hi
    rw [gF]
    rcases hG i hi with hi | ⟨rfl, hlt⟩
    · rw [if_neg (by rintro rfl; exact hkS.2 hi)]
      exact h.large i (List.mem_cons_of_mem _ hi)
    · rw [if_pos rfl]; exact hlt
  · intro i hi
    rw [gF]
    split_ifs
    · linarith
    · exact h.nonneg i hi
  · intro i hi hiA
    rw [hA', not_or] at hiA
    rw [gF, if_neg (fun e => hiA.1 e.symm)]
    by_cases hij : i = j
    · rw [hij]; exact hfj.le
    · exact h.done i hi (by rw [hA]; tauto)
  · intro i hi
    rw [gL]
    split_ifs
    · exact hk
    · exact h.target i hi
  · intro k0 hk0
    have e : passed N (S' ++ G') (F.set k (F.getD k 0 - (1 - F.getD j 0))) (L.set j k) k0 =
        passed N (j :: S ++ k :: G) F L k0 + if k = k0 then 1 - F.getD j 0 else 0 := by
      have : (if k = k0 then 1 - F.getD j 0 else 0) = ∑ i ∈ Finset.range N, if i = j then (if k = k0 then 1 - F.getD j 0 else 0) else 0 := by
        rw [Finset.sum_ite_eq' (Finset.range N) j, if_pos (Finset.mem_range.2 hj)]
      rw [passed, passed, this, ← Finset.sum_add_distrib]
      refine Finset.sum_congr rfl fun i _ => ?_
      rw [gF, gL]
      by_cases hij : i = j
      · subst hij
        have n1 : i ∉ S' ++ G' := by rw [hA']; tauto
        have n2 : i ∈ i :: S ++ k :: G := (hA i).2 (Or.inl rfl)
        have n3 : (k = i) = False := eq_false (Ne.symm hjS.2.1)
        simp only [n1, n2, n3, if_true, if_false, not_false_eq_true, true_and, not_true_eq_false, false_and, zero_add]
      · have n3 : (j = i) = False := eq_false (fun e => hij e.symm)
        have n4 : (i = j) = False := eq_false hij
        by_cases hik : i = k
        · subst hik
          have n1 : i ∈ S' ++ G' := (hA' i).2 (Or.inl rfl)
          have n2 : i ∈ j :: S ++ i :: G := (hA i).2 (Or.inr (Or.inl rfl))
          simp only [n1, n2, n4, if_false, not_true_eq_false, false_and, zero_add]
        · have n5 : (k = i) = False := eq_false (fun e => hik e.symm)
          have n6 : (i ∉ S' ++ G') = (i ∉ j :: S ++ k :: G) := propext (by rw [hA', hA]; tauto)
          simp only [n3, n4, n5, n6, if_false, add_zero]
    rw [e, gF, ← h.mass k0 hk0]
    split_ifs with hkk
    · subst hkk; ring
    · ring
  · refine Eq.trans ?_ h.bal
    rw [balance, balance]
    have e : ∀ i ∈ Finset.range N, (if i ∈ S' ++ G' then (F.set k (F.getD k 0 - (1 - F.getD j 0))).getD i 0 - 1 else 0) =
        (if i ∈ j :: S ++ k :: G then F.getD i 0 - 1 else 0) + ((if i = j then 1 - F.getD j 0 else 0) + if i = k then -(1 - F.getD j 0) else 0) := by
      intro i _
      rw [gF]
      by_cases hij : i = j
      · subst hij
        rw [if_neg (by rw [hA']; tauto), if_pos ((hA i).2 (Or.inl rfl)), if_pos rfl, if_neg hjS.2.1]
        ring
      · by_cases hik : i = k
        · subst hik
          rw [if_pos ((hA' i).2 (Or.inl rfl)), if_pos rfl, if_pos ((hA i).2 (Or.inr (Or.inl rfl))), if_neg hij, if_pos rfl]
          ring
        · have n3 : (k = i) = False := eq_false (fun e => hik e.symm)
          have n4 : (i = j) = False := eq_false hij
          have n5 : (i = k) = False := eq_false hik
          have n6 : (i ∈ S' ++ G') = (i ∈ j :: S ++ k :: G) := propext (by rw [hA', hA]; tauto)
          simp only [n3, n4, n5, n6, if_false, add_zero]
    rw [Finset.sum_congr rfl e, Finset.sum_add_distrib, Finset.sum_add_distrib, Finset.sum_ite_eq' (Finset.range N) j,
      Finset.sum_ite_eq' (Finset.range N) k, if_pos (Finset.mem_range.2 hj), if_pos (Finset.mem_range.2 hk)]
    ring

/-- What a finished table satisfies. -/
structure AliasOk (N : Nat) (q : Nat → α) (F : List α) (L : List Nat) : Prop where
  lenF : F.length = N
  lenL : L.length = N
  nonneg : ∀ i, i < N → 0 ≤ F.getD i 0
  le_one : ∀ i, i < N → F.getD i 0 ≤ 1
  target : ∀ i, i < N → L.getD i 0 < N
  mass : ∀ k, k < N → F.getD k 0 + (∑ i ∈ Finset.range N, if L.getD i 0 = k then 1 - F.getD i 0 else 0) = q k

theorem AliasInv.finish {N : Nat} {q : Nat → α} {S G : List Nat} {F : List α} {L : List Nat} (h : AliasInv N q S G F L)
    (hSG : S = [] ∨ G = []) : AliasOk N q F L := by
  have hone : ∀ i, i ∈ S ++ G → F.getD i 0 = 1 := by
    intro i hi
    have hz : (if i ∈ S ++ G then F.getD i 0 - 1 else 0) = 0 := by
      have hb := h.bal
      unfold balance at hb
      have hir : i ∈ Finset.range N := Finset.mem_range.2 (h.lt i hi)
      rcases hSG with rfl | rfl
      · refine (Finset.sum_eq_zero_iff_of_nonneg fun i _ => ?_).1 hb i hir
        split_ifs with hm
        · have := h.large i (by simpa using hm); linarith
        · exact le_rfl
      · refine (Finset.sum_eq_zero_iff_of_nonpos fun i _ => ?_).1 hb i hir
        split_ifs with hm
        · have := h.small i (by simpa using hm); linarith
        · exact le_rfl
    rw [if_pos hi] at hz
    linarith
  refine ⟨h.lenF, h.lenL, h.nonneg, ?_, h.target, ?_⟩
  · intro i hi
    by_cases hm : i ∈ S ++ G
    · exact (hone i hm).le
    · exact h.done i hi hm
  · intro k hk
    rw [← h.mass k hk, passed]
    congr 1
    refine Finset.sum_congr rfl fun i _ => ?_
    by_cases hm : i ∈ S ++ G
    · rw [if_neg (c := i ∉ _ ∧ _) (fun hc => hc.1 hm), hone i hm, sub_self, ite_self]
    · by_cases hl : L.getD i 0 = k
      · rw [if_pos hl, if_pos ⟨hm, hl⟩]
      · rw [if_neg hl, if_neg (fun hc => hl hc.2)]

theorem aliasLoop_spec {N : Nat} {q : Nat → α} : ∀ (fuel : Nat) (S G : List Nat) (F : List α) (L : List Nat),
    S.length + G.length < fuel → AliasInv N q S G F L → ∃ r, aliasLoop id fuel S G F L = some r ∧ AliasOk N q r.1 r.2
  | 0, _, _, _, _, hf, _ => by omega
  | fuel + 1, [], G, F, L, _, h => ⟨(F, L), by simp [aliasLoop], h.finish (Or.inl rfl)⟩
  | fuel + 1, j :: S, [], F, L, _, h => ⟨(F, L), by simp [aliasLoop], h.finish (Or.inr rfl)⟩
  | fuel + 1, j :: S, k :: G, F, L, hf, h => by
    have hj : j < N := h.lt j (by simp)
    have hk : k < N := h.lt k (by simp)
    have hjF : j < F.length := by rw [h.lenF]; exact hj
    have hkF : k < F.length := by rw [h.lenF]; exact hk
    have ek : F[k]? = some (F.getD k 0) := by rw [List.getElem?_eq_getElem hkF, List.getD_eq_getElem _ _ hkF]
    have ej : F[j]? = some (F.getD j 0) := by rw [List.getElem?_eq_getElem hjF, List.getD_eq_getElem _ _ hjF]
    simp only [List.length_cons] at hf
    rw [aliasLoop, set?_some (by rw [h.lenL]; exact hj), ek, ej]
    simp only [Option.bind_eq_bind, Option.bind_some, id]
    rw [set?_some hkF, Option.bind_some]
    split_ifs with hlt
    · refine aliasLoop_spec fuel (k :: S) G _ _ (by simp only [List.length_cons]; omega) (step_inv h (List.Perm.refl _) ?_ ?_)
      · intro i hi
        rcases List.mem_cons.1 hi with rfl | hi
        · exact Or.inr ⟨rfl, hlt⟩
        · exact Or.inl hi
      · intro i hi; exact Or.inl hi
    · refine aliasLoop_spec fuel S (k :: G) _ _ (by simp only [List.length_cons]; omega) (step_inv h List.perm_middle ?_ ?_)
      · intro i hi; exact Or.inl hi
      · intro i hi
        rcases List.mem_cons.1 hi with rfl | hi
        · exact Or.inr ⟨rfl, not_lt.1 hlt⟩
        · exact Or.inl hi

theorem accumulate_id (l : List α) : accumulate id l = l.sum := by
  have : ∀ (l : List α) (a : α), l.foldl (fun a x => id (a + x)) a = a + l.sum := by
    intro l
    induction l with
    | nil => intro a; simp
    | cons x l ih => intro a; rw [List.foldl_cons, ih, List.sum_cons, id]; ring
  rw [accumulate, this, zero_add]

theorem sum_eq_cum (w : List α) : w.sum = cum w w.length := by
  induction w using List.reverseRecOn with
  | nil => rfl
  | append_singleton l x ih =>
    rw [List.sum_append, List.sum_singleton, ih, List.length_append, List.length_singleton, cum_succ]
    congr 1
    · unfold cum
      refine Finset.sum_congr rfl fun i hi => ?_
      rw [List.getD_append _ _ _ _ (Finset.mem_range.1 hi)]
    · rw [List.getD_append_right _ _ _ _ le_rfl, Nat.sub_self]; rfl

/-- The whole construction, with the intended sizes. -/
theorem intended_spec {w : List α} (hw : ∀ x ∈ w, 0 ≤ x) (hs : 0 < w.sum) :
    ∃ A, Alias.intended id w = some A ∧ A.N = w.length ∧ AliasOk w.length (fun k => w.length * (w.getD k 0 / w.sum)) A.F A.L := by
  rw [Alias.intended, Alias.body]
  simp only [accumulate_id]
  rw [if_pos hs]
  simp only [id, List.map_map, List.length_map]
  set F0 : List α := w.map ((fun v => (w.length : α) * v) ∘ fun v => v / w.sum) with hF0
  have hlen : F0.length = w.length := by rw [hF0, List.length_map]
  have hF : ∀ i, F0.getD i 0 = w.length * (w.getD i 0 / w.sum) := by
    intro i
    rw [hF0, List.getD_eq_getElem?_getD, List.getElem?_map, List.getD_eq_getElem?_getD]
    rcases w[i]? with _ | x <;> simp
  have hwpos : 0 < w.length := by
    rcases w with _ | ⟨x, w⟩
    · simp at hs
    · simp
  set S := ((List.range w.length).filter fun i => decide (F0.getD i 0 < 1)).reverse with hS
  set G := ((List.range w.length).filter fun i => !decide (F0.getD i 0 < 1)).reverse with hG
  have mS : ∀ i, i ∈ S ↔ i < w.length ∧ F0.getD i 0 < 1 := by
    intro i; rw [hS, List.mem_reverse, List.mem_filter, List.mem_range, decide_eq_true_iff]
  have mG : ∀ i, i ∈ G ↔ i < w.length ∧ ¬ F0.getD i 0 < 1 := by
    intro i; rw [hG, List.mem_reverse, List.mem_filter, List.mem_range, Bool.not_eq_true', decide_eq_false_iff_not]
  have mA : ∀ i, i ∈ S ++ G ↔ i < w.length := by
    intro i; rw [List.mem_append, mS, mG]; tauto
  have hlr : (List.replicate w.length 0).length = w.length := List.length_replicate
  have hzero : ∀ i, (List.replicate w.length 0).getD i 0 = 0 := by
    intro i
    rw [List.getD_eq_getElem?_getD, List.getElem?_replicate]
    split_ifs <;> rfl
  have hinv : AliasInv w.length (fun k => w.length * (w.getD k 0 / w.sum)) S G F0 (List.replicate w.length 0) := by
    refine ⟨hlen, hlr, ?_, fun i hi => (mA i).1 hi, fun i hi => ((mS i).1 hi).2, fun i hi => not_lt.1 ((mG i).1 hi).2, ?_, ?_, ?_, ?_, ?_⟩
    · rw [List.nodup_append]
      refine ⟨List.nodup_reverse.2 (List.nodup_range.filter _), List.nodup_reverse.2 (List.nodup_range.filter _), ?_⟩
      intro a ha b hb hab
      subst hab
      exact ((mG a).1 hb).2 ((mS a).1 ha).2
    · intro i hi
      rw [hF]
      apply mul_nonneg (Nat.cast_nonneg _) (div_nonneg _ hs.le)
      rw [List.getD_eq_getElem _ _ hi]
      exact hw _ (List.getElem_mem _)
    · intro i hi hni; exact absurd ((mA i).2 hi) hni
    · intro i _; rw [hzero]; exact hwpos
    · intro k hk
      have : passed w.length (S ++ G) F0 (List.replicate w.length 0) k = 0 := by
        apply Finset.sum_eq_zero
        intro i hi
        rw [if_neg (fun hc => hc.1 ((mA i).2 (Finset.mem_range.1 hi)))]
      rw [this, add_zero, hF]
    · have : balance w.length (S ++ G) F0 = ∑ i ∈ Finset.range w.length, ((w.length : α) / w.sum * w.getD i 0 - 1) := by
        refine Finset.sum_congr rfl fun i hi => ?_
        rw [if_pos ((mA i).2 (Finset.mem_range.1 hi)), hF]; ring
      rw [this, Finset.sum_sub_distrib, ← Finset.mul_sum]
      have e : ∑ i ∈ Finset.range w.length, w.getD i 0 = w.sum := (sum_eq_cum w).symm
      rw [e, div_mul_cancel₀ _ hs.ne', Finset.sum_const, Finset.card_range, nsmul_eq_mul, mul_one, sub_self]
  have hl : S.length + G.length < F0.length + 1 := by
    have h1 : S.length + G.length = (List.range w.length).length := by
      rw [hS, hG, List.length_reverse, List.length_reverse]
      exact (List.length_eq_length_filter_add _).symm
    rw [h1, List.length_range, hlen]; omega
  rw [hlen] at hl
  obtain ⟨r, hr, hok⟩ := aliasLoop_spec (w.length + 1) S G F0 (List.replicate w.length 0) hl hinv
  rw [hr]
  exact ⟨⟨w, r.1, r.2, w.length⟩, rfl, rfl, hok⟩

end Trng.Discrete
