import Verif.Model.Discrete
import Mathlib.Data.List.GetD
import Mathlib.Algebra.BigOperators.Intervals
import Mathlib.Tactic.Linarith
import Mathlib.Tactic.Ring

/-! Helper lemmas for the discrete distributions. -/
set_option linter.unusedSectionVars false
namespace Trng.Discrete
open IntMath

variable {α : Type} [Field α] [LinearOrder α]

/-! ### search -/

theorem searchLoop_spec {x : α} {t : List α} : ∀ (fuel i1 i2 : Nat), i2 - i1 ≤ fuel → i1 < i2 → i2 < t.length →
    (i1 = 0 ∨ t.getD i1 0 < x) → (i2 = t.length - 1 ∨ x ≤ t.getD i2 0) →
    ∃ i, searchLoop x t fuel i1 i2 = some i ∧ 1 ≤ i ∧ i < t.length ∧ (i = 1 ∨ t.getD (i - 1) 0 < x) ∧
      (i = t.length - 1 ∨ x ≤ t.getD i 0)
  | 0, i1, i2, hf, h12, _, _, _ => by omega
  | fuel + 1, i1, i2, hf, h12, h2, hl, hr => by
    rw [searchLoop]
    split_ifs with hgap
    · have hlt : (i2 + i1) / 2 < t.length := by omega
      rw [List.getElem?_eq_getElem hlt, Option.bind_some]
      have e : t.getD ((i2 + i1) / 2) 0 = t[(i2 + i1) / 2] := List.getD_eq_getElem _ _ hlt
      split_ifs with hx
      · exact searchLoop_spec fuel _ _ (by omega) (by omega) hlt hl (Or.inr (by rw [e]; exact hx))
      · exact searchLoop_spec fuel _ _ (by omega) (by omega) h2 (Or.inr (by rw [e]; exact not_le.1 hx)) hr
    · have : i1 = i2 - 1 := by omega
      subst this
      refine ⟨i2, rfl, by omega, h2, ?_, hr⟩
      rcases hl with h | h
      · left; omega
      · right; exact h

theorem set?_some {β : Type} {l : List β} {i : Nat} (h : i < l.length) (x : β) : set? l i x = some (l.set i x) := if_pos h

/-! ### the tree -/

/-- The value an inner node should have. -/
def nodeVal (rnd : α → α) (P : List α) (i : Nat) : α :=
  match P[2 * i + 1]?, P[2 * i + 2]? with
  | some a, some b => rnd (a + b)
  | some a, none => a
  | none, _ => 0

/-- `P` is the tree of the weights `w` with `L` layers. -/
structure IsTree (rnd : α → α) (w : List α) (L : Nat) (P : List α) : Prop where
  len : P.length = 2 ^ L - 1 + w.length
  leaf : ∀ k, P[2 ^ L - 1 + k]? = w[k]?
  node : ∀ i, i < 2 ^ L - 1 → P[i]? = some (nodeVal rnd P i)

theorem nodeVal_congr {rnd : α → α} {P Q : List α} {i : Nat} (h1 : P[2 * i + 1]? = Q[2 * i + 1]?)
    (h2 : P[2 * i + 2]? = Q[2 * i + 2]?) : nodeVal rnd P i = nodeVal rnd Q i := by
  unfold nodeVal; rw [h1, h2]

theorem IsTree.unique {rnd : α → α} {w : List α} {L : Nat} {P Q : List α} (hP : IsTree rnd w L P) (hQ : IsTree rnd w L Q) :
    P = Q := by
  apply List.ext_getElem?
  have key : ∀ n i, 2 ^ L - 1 - i ≤ n → P[i]? = Q[i]? := by
    intro n
    induction n with
    | zero =>
      intro i h
      obtain ⟨k, rfl⟩ : ∃ k, i = 2 ^ L - 1 + k := ⟨i - (2 ^ L - 1), by omega⟩
      rw [hP.leaf, hQ.leaf]
    | succ n ih =>
      intro i h
      by_cases hi : i < 2 ^ L - 1
      · rw [hP.node i hi, hQ.node i hi, nodeVal_congr (ih _ (by omega)) (ih _ (by omega))]
      · exact ih i (by omega)
  exact fun i => key _ i le_rfl

theorem pow2_eq (x : Nat) : pow2 x = 2 ^ x := by rw [pow2, Nat.one_shiftLeft]

/-- One layer. -/
theorem layerLoop_spec {rnd : α → α} {first last : Nat} (hodd : first % 2 = 1) (hl : last ≤ 2 * first + 1) :
    ∀ (fuel i : Nat) (P : List α), last - i < fuel → first ≤ i → i % 2 = 1 → last ≤ P.length →
    ∃ P', layerLoop rnd last fuel i P = some P' ∧ P'.length = P.length ∧
      ∀ k, P'[k]? = if i ≤ 2 * k + 1 ∧ 2 * k + 1 < last then some (nodeVal rnd (P.take last) k) else P[k]?
  | 0, i, P, hf, _, _, _ => by omega
  | fuel + 1, i, P, hf, hi, hio, hP => by
    rw [layerLoop]
    by_cases hil : i < last
    · rw [if_pos hil]
      have h1 : i < P.length := by omega
      have hpar : (i - 1) / 2 < P.length := by omega
      have hparf : (i - 1) / 2 < first := by omega
      obtain ⟨v, hv, hvv⟩ : ∃ v, (if i + 1 < last then (P[i + 1]?).map fun b => rnd (P[i] + b) else some P[i]) = some v ∧
          nodeVal rnd (P.take last) ((i - 1) / 2) = v := by
        have e1 : 2 * ((i - 1) / 2) + 1 = i := by omega
        have e2 : 2 * ((i - 1) / 2) + 2 = i + 1 := by omega
        unfold nodeVal
        rw [e1, e2, List.getElem?_take_of_lt hil, List.getElem?_eq_getElem h1]
        by_cases hn : i + 1 < last
        · have h2 : i + 1 < P.length := by omega
          rw [if_pos hn, List.getElem?_take_of_lt hn, List.getElem?_eq_getElem h2]
          exact ⟨_, rfl, rfl⟩
        · rw [if_neg hn]
          have : (P.take last)[i + 1]? = none := by
            rw [List.getElem?_eq_none_iff, List.length_take]; omega
          rw [this]
          exact ⟨_, rfl, rfl⟩
      rw [List.getElem?_eq_getElem h1, Option.bind_some, hv, Option.bind_some, set?_some hpar, Option.bind_some]
      obtain ⟨P', hP', hlen, hspec⟩ := layerLoop_spec hodd hl fuel (i + 2) (P.set ((i - 1) / 2) v) (by omega) (by omega) (by omega)
        (by rw [List.length_set]; exact hP)
      refine ⟨P', hP', by rw [hlen, List.length_set], fun k => ?_⟩
      rw [hspec k]
      by_cases hk : 2 * k + 1 = i
      · rw [if_neg (by omega), if_pos (by omega)]
        have : k = (i - 1) / 2 := by omega
        subst this
        rw [List.getElem?_set_self hpar, hvv]
      · by_cases hk2 : i + 2 ≤ 2 * k + 1 ∧ 2 * k + 1 < last
        · rw [if_pos hk2, if_pos (by omega)]
          congr 1
          apply nodeVal_congr
          · rw [List.getElem?_take_of_lt hk2.2, List.getElem?_take_of_lt hk2.2, List.getElem?_set_ne (by omega)]
          · by_cases h3 : 2 * k + 2 < last
            · rw [List.getElem?_take_of_lt h3, List.getElem?_take_of_lt h3, List.getElem?_set_ne (by omega)]
            · rw [List.getElem?_eq_none_iff.2, List.getElem?_eq_none_iff.2]
              · rw [List.length_take]; omega
              · rw [List.length_take]; omega
        · rw [if_neg hk2, if_neg (by omega), List.getElem?_set_ne (by omega)]
    · rw [if_neg hil]
      exact ⟨P, rfl, rfl, fun k => by rw [if_neg (by omega)]⟩

theorem two_pow_odd {l : Nat} (h : 1 ≤ l) : (2 ^ l - 1) % 2 = 1 := by
  obtain ⟨m, rfl⟩ := Nat.exists_eq_add_of_le h
  rw [Nat.add_comm, Nat.pow_succ]
  have := Nat.one_le_two_pow (n := m)
  omega

theorem updateLayer_spec {rnd : α → α} {l n : Nat} (h1 : 1 ≤ l) (hn : n ≤ 2 ^ l) {P : List α} (hP : 2 ^ l - 1 + n ≤ P.length) :
    ∃ P', updateLayer rnd l n P = some P' ∧ P'.length = P.length ∧
      ∀ k, P'[k]? = if 2 ^ l - 1 ≤ 2 * k + 1 ∧ 2 * k + 1 < 2 ^ l - 1 + n then some (nodeVal rnd (P.take (2 ^ l - 1 + n)) k) else P[k]? := by
  rw [updateLayer, pow2_eq]
  have := Nat.one_le_two_pow (n := l)
  exact layerLoop_spec (two_pow_odd h1) (by omega) _ _ _ (by omega) le_rfl (two_pow_odd h1) hP

theorem lowerLayers_spec {rnd : α → α} {w : List α} {L : Nat} (hw : 1 ≤ w.length) :
    ∀ (l : Nat) (P : List α), l < L → P.length = 2 ^ L - 1 + w.length → (∀ k, P[2 ^ L - 1 + k]? = w[k]?) →
    (∀ i, 2 ^ l - 1 ≤ i → i < 2 ^ L - 1 → P[i]? = some (nodeVal rnd P i)) →
    ∃ P', lowerLayers rnd l P = some P' ∧ IsTree rnd w L P'
  | 0, P, _, h1, h2, h3 => ⟨P, rfl, h1, h2, fun i => h3 i (by simp)⟩
  | l + 1, P, hl, h1, h2, h3 => by
    have hpow : 2 ^ (l + 1) ≤ 2 ^ (L - 1) := Nat.pow_le_pow_right (by omega) (by omega)
    have hL : 2 ^ L = 2 * 2 ^ (L - 1) := by
      obtain ⟨m, rfl⟩ := Nat.exists_eq_succ_of_ne_zero (by omega : L ≠ 0)
      rw [Nat.pow_succ, Nat.succ_sub_one]; omega
    have hl2 : 2 ^ (l + 1) = 2 * 2 ^ l := by rw [Nat.pow_succ]; omega
    have hp0 := Nat.one_le_two_pow (n := l)
    rw [lowerLayers, pow2_eq]
    obtain ⟨P', hP', hlen, hspec⟩ := updateLayer_spec (rnd := rnd) (l := l + 1) (n := 2 ^ (l + 1)) (by omega) le_rfl (P := P) (by omega)
    rw [hP', Option.bind_eq_bind, Option.bind_some]
    have hsame : ∀ k, 2 ^ (l + 1) - 1 ≤ k → P'[k]? = P[k]? := by
      intro k hk; rw [hspec, if_neg (by omega)]
    refine lowerLayers_spec hw l P' (by omega) (by omega) ?_ ?_
    · intro k; rw [hsame _ (by omega), h2]
    · intro i hi1 hi2
      by_cases hi : 2 ^ (l + 1) - 1 ≤ i
      · rw [hsame i hi, h3 i hi hi2]
        congr 1
        exact nodeVal_congr (hsame _ (by omega)).symm (hsame _ (by omega)).symm
      · rw [hspec, if_pos (by omega)]
        congr 1
        apply nodeVal_congr
        · rw [List.getElem?_take_of_lt (by omega), hsame _ (by omega)]
        · rw [List.getElem?_take_of_lt (by omega), hsame _ (by omega)]

theorem updateAll_spec {rnd : α → α} {w : List α} {L : Nat} (hw : 1 ≤ w.length) (hwL : w.length ≤ 2 ^ L) :
    ∃ P, updateAllLayers rnd w.length L (List.replicate (2 ^ L - 1) 0 ++ w) = some P ∧ IsTree rnd w L P := by
  set P0 : List α := List.replicate (2 ^ L - 1) 0 ++ w with hP0
  have hlen : P0.length = 2 ^ L - 1 + w.length := by rw [hP0, List.length_append, List.length_replicate]
  have hleaf : ∀ k, P0[2 ^ L - 1 + k]? = w[k]? := by
    intro k
    rw [hP0, List.getElem?_append_right (by rw [List.length_replicate]; omega), List.length_replicate]
    congr 1; omega
  have hzero : ∀ i, i < 2 ^ L - 1 → P0[i]? = some 0 := by
    intro i hi
    rw [hP0, List.getElem?_append_left (by rw [List.length_replicate]; omega), List.getElem?_replicate, if_pos hi]
  cases L with
  | zero => exact ⟨P0, rfl, hlen, hleaf, fun i hi => by simp at hi⟩
  | succ l =>
    have hl2 : 2 ^ (l + 1) = 2 * 2 ^ l := by rw [Nat.pow_succ]; omega
    have hp0 := Nat.one_le_two_pow (n := l)
    obtain ⟨P', hP', hlen', hspec⟩ := updateLayer_spec (rnd := rnd) (l := l + 1) (n := w.length) (by omega) hwL (P := P0) (by omega)
    rw [updateAllLayers, hP', Option.bind_eq_bind, Option.bind_some]
    have hsame : ∀ k, 2 ^ (l + 1) - 1 ≤ k → P'[k]? = P0[k]? := by
      intro k hk; rw [hspec, if_neg (by omega)]
    refine lowerLayers_spec hw l P' (by omega) (by omega) ?_ ?_
    · intro k; rw [hsame _ (by omega), hleaf]
    · intro i hi1 hi2
      have ht : P0.take (2 ^ (l + 1) - 1 + w.length) = P0 := by rw [← hlen, List.take_length]
      have hc : nodeVal rnd P0 i = nodeVal rnd P' i := nodeVal_congr (hsame _ (by omega)).symm (hsame _ (by omega)).symm
      rw [hspec, ht, hc]
      split_ifs with h
      · rfl
      · rw [hzero i hi2]
        congr 1
        unfold nodeVal
        have : P'[2 * i + 1]? = none := by rw [List.getElem?_eq_none_iff]; omega
        rw [this]

/-! ### updating a weight -/

theorem raise_spec {rnd : α → α} {w : List α} {L : Nat} (hw : 1 ≤ w.length) : ∀ (fuel x : Nat) (P : List α), x < fuel → 0 < x →
    2 * ((x - 1) / 2) + 2 < P.length → (x - 1) / 2 < 2 ^ L - 1 →
    P.length = 2 ^ L - 1 + w.length → (∀ k, P[2 ^ L - 1 + k]? = w[k]?) →
    (∀ i, i < 2 ^ L - 1 → i ≠ (x - 1) / 2 → P[i]? = some (nodeVal rnd P i)) →
    ∃ P', raise rnd fuel x P = some P' ∧ IsTree rnd w L P'
  | 0, x, P, hf, _, _, _, _, _, _ => by omega
  | fuel + 1, x, P, hf, hx, hr, hin, hlen, hleaf, hnode => by
    rw [raise]
    set y := (x - 1) / 2 with hy
    have hb : 2 * y + 1 < P.length := by omega
    rw [List.getElem?_eq_getElem hb, List.getElem?_eq_getElem hr, Option.bind_eq_bind, Option.bind_some, Option.bind_eq_bind,
      Option.bind_some, set?_some (by omega), Option.bind_some]
    set P' := P.set y (rnd (P[2 * y + 1] + P[2 * y + 2])) with hP'
    have hlen' : P'.length = 2 ^ L - 1 + w.length := by rw [hP', List.length_set, hlen]
    have hself : P'[y]? = some (nodeVal rnd P' y) := by
      rw [hP', List.getElem?_set_self (by omega)]
      congr 1
      unfold nodeVal
      rw [List.getElem?_set_ne (by omega), List.getElem?_set_ne (by omega), List.getElem?_eq_getElem hb, List.getElem?_eq_getElem hr]
    have hleaf' : ∀ k, P'[2 ^ L - 1 + k]? = w[k]? := by
      intro k; rw [hP', List.getElem?_set_ne (by omega), hleaf]
    have hnode' : ∀ i, i < 2 ^ L - 1 → (y = 0 ∨ i ≠ (y - 1) / 2) → P'[i]? = some (nodeVal rnd P' i) := by
      intro i hi hne
      by_cases hiy : i = y
      · rw [hiy]; exact hself
      · rw [hP', List.getElem?_set_ne (by omega), hnode i hi hiy]
        congr 1
        apply nodeVal_congr
        · rw [List.getElem?_set_ne (by omega)]
        · rw [List.getElem?_set_ne (by omega)]
    split_ifs with hpos
    · exact raise_spec hw fuel y P' (by omega) hpos (by omega) (by omega) hlen' hleaf' (fun i hi hne => hnode' i hi (Or.inr hne))
    · exact ⟨P', rfl, hlen', hleaf', fun i hi => hnode' i hi (Or.inl (by omega))⟩

/-! ### sampling -/

/-- Partial sums of the weights, continued by zeros. -/
def cum (w : List α) (n : Nat) : α := ∑ k ∈ Finset.range n, w.getD k 0

theorem cum_succ (w : List α) (n : Nat) : cum w (n + 1) = cum w n + w.getD n 0 := Finset.sum_range_succ _ _

theorem cum_zero (w : List α) : cum w 0 = 0 := rfl

theorem cum_past {w : List α} {n : Nat} (h : w.length ≤ n) : cum w n = cum w w.length := by
  induction n with
  | zero => rw [Nat.le_zero.1 h]
  | succ n ih =>
    rcases Nat.lt_or_ge n w.length with hn | hn
    · rw [show n + 1 = w.length by omega]
    · rw [cum_succ, ih hn, List.getD_eq_default _ _ hn, add_zero]

theorem nodeVal_id (P : List α) (i : Nat) (hx : ∀ i, P[2 * i + 1]? = none → P[2 * i + 2]? = none) :
    nodeVal id P i = P.getD (2 * i + 1) 0 + P.getD (2 * i + 2) 0 := by
  have := hx i
  unfold nodeVal
  rw [List.getD_eq_getElem?_getD, List.getD_eq_getElem?_getD]
  rcases h1 : P[2 * i + 1]? with _ | a <;> rcases h2 : P[2 * i + 2]? with _ | b <;> simp_all

theorem IsTree.sum {w : List α} {L : Nat} {P : List α} (hP : IsTree id w L P) :
    ∀ m d, d + m = L → ∀ j, j < 2 ^ d → P.getD (2 ^ d - 1 + j) 0 = cum w ((j + 1) * 2 ^ m) - cum w (j * 2 ^ m) := by
  intro m
  induction m with
  | zero =>
    intro d hd j hj
    rw [Nat.add_zero] at hd
    subst hd
    rw [List.getD_eq_getElem?_getD, hP.leaf, pow_zero, mul_one, mul_one, cum_succ, add_sub_cancel_left, List.getD_eq_getElem?_getD]
  | succ m ih =>
    intro d hd j hj
    have h1 := ih (d + 1) (by omega) (2 * j) (by rw [Nat.pow_succ]; omega)
    have h2 := ih (d + 1) (by omega) (2 * j + 1) (by rw [Nat.pow_succ]; omega)
    have hp := Nat.one_le_two_pow (n := d)
    have hdL : 2 ^ (d + 1) ≤ 2 ^ L := Nat.pow_le_pow_right (by omega) (by omega)
    have hd2 : 2 ^ (d + 1) = 2 * 2 ^ d := by rw [Nat.pow_succ]; omega
    have hn := hP.node (2 ^ d - 1 + j) (by omega)
    rw [List.getD_eq_getElem?_getD, hn, Option.getD_some, nodeVal_id P _ (fun i h => by
      rw [List.getElem?_eq_none_iff] at h ⊢; omega)]
    rw [show 2 * (2 ^ d - 1 + j) + 1 = 2 ^ (d + 1) - 1 + 2 * j by omega,
      show 2 * (2 ^ d - 1 + j) + 2 = 2 ^ (d + 1) - 1 + (2 * j + 1) by omega, h1, h2,
      show (2 * j + 1 + 1) * 2 ^ m = (j + 1) * 2 ^ (m + 1) by ring, show (2 * j) * 2 ^ m = j * 2 ^ (m + 1) by ring]
    ring

variable [IsStrictOrderedRing α]

/-- The descent with exact subtractions. -/
theorem descend_spec {rnd : α → α} {w : List α} {L : Nat} {P : List α} (hP : IsTree id w L P) {U : α}
    {Good : α → Prop} (hsub : ∀ u l, Good u → l ∈ P → l ≤ u → rnd (u - l) = u - l ∧ Good (u - l)) :
    ∀ (m fuel d j : Nat), m < fuel → d + m = L → j < 2 ^ d → Good (U - cum w (j * 2 ^ m)) →
    cum w (j * 2 ^ m) ≤ U → U < cum w ((j + 1) * 2 ^ m) →
    ∃ k, descend rnd (2 ^ L - 1) P fuel (U - cum w (j * 2 ^ m)) (2 ^ d - 1 + j) = some (2 ^ L - 1 + k) ∧ k < w.length ∧
      cum w k ≤ U ∧ U < cum w (k + 1) := by
  intro m
  induction m with
  | zero =>
    intro fuel d j hf hd hj _ h1 h2
    rw [Nat.add_zero] at hd
    subst hd
    rw [pow_zero, mul_one] at h1 h2 ⊢
    obtain ⟨f, rfl⟩ := Nat.exists_eq_succ_of_ne_zero (by omega : fuel ≠ 0)
    rw [descend, if_neg (by omega)]
    refine ⟨j, rfl, ?_, h1, h2⟩
    by_contra hc
    rw [cum_past (by omega), ← cum_past (n := j) (by omega)] at h2
    exact absurd h2 (not_lt.2 h1)
  | succ m ih =>
    intro fuel d j hf hd hj hg h1 h2
    obtain ⟨f, rfl⟩ := Nat.exists_eq_succ_of_ne_zero (by omega : fuel ≠ 0)
    have hp := Nat.one_le_two_pow (n := d)
    have hdL : 2 ^ (d + 1) ≤ 2 ^ L := Nat.pow_le_pow_right (by omega) (by omega)
    have hd2 : 2 ^ (d + 1) = 2 * 2 ^ d := by rw [Nat.pow_succ]; omega
    have e0 : 2 * (2 ^ d - 1 + j) + 1 = 2 ^ (d + 1) - 1 + 2 * j := by omega
    have e0' : 2 * (2 ^ d - 1 + j) + 2 = 2 ^ (d + 1) - 1 + (2 * j + 1) := by omega
    have e1 : (2 * j + 1 + 1) * 2 ^ m = (j + 1) * 2 ^ (m + 1) := by ring
    have e2 : (2 * j) * 2 ^ m = j * 2 ^ (m + 1) := by ring
    have hlt : 2 ^ (d + 1) - 1 + 2 * j < P.length := by
      rw [hP.len]
      rcases Nat.eq_zero_or_pos m with rfl | hm
      · by_contra hc
        have : w.length ≤ 2 * j := by rw [show L = d + 1 by omega] at hc; omega
        rw [cum_past (by omega), ← cum_past (n := j * 2 ^ (0 + 1)) (by omega)] at h2
        exact absurd h2 (not_lt.2 h1)
      · have : 2 ^ (d + 1 + 1) ≤ 2 ^ L := Nat.pow_le_pow_right (by omega) (by omega)
        rw [Nat.pow_succ] at this
        omega
    have hval := hP.sum m (d + 1) (by omega) (2 * j) (by omega)
    rw [List.getD_eq_getElem _ _ hlt, e2] at hval
    rw [descend, if_pos (by omega), e0, e0', List.getElem?_eq_getElem hlt, Option.bind_some, hval]
    split_ifs with hu
    · rw [← e2] at hg h1 hu ⊢
      exact ih f (d + 1) (2 * j) (by omega) (by omega) (by omega) hg h1 (by linarith)
    · have hmem : cum w ((2 * j + 1) * 2 ^ m) - cum w (j * 2 ^ (m + 1)) ∈ P := by rw [← hval]; exact List.getElem_mem _
      obtain ⟨hr, hg'⟩ := hsub _ _ hg hmem (not_lt.1 hu)
      have es : U - cum w (j * 2 ^ (m + 1)) - (cum w ((2 * j + 1) * 2 ^ m) - cum w (j * 2 ^ (m + 1))) = U - cum w ((2 * j + 1) * 2 ^ m) := by ring
      rw [es] at hr hg'
      rw [es, hr]
      exact ih f (d + 1) (2 * j + 1) (by omega) (by omega) (by omega) hg' (by linarith [not_lt.1 hu]) (by rw [e1]; exact h2)

theorem cum_mono {w : List α} (h : ∀ x ∈ w, 0 ≤ x) : Monotone (cum w) := by
  apply monotone_nat_of_le_succ
  intro n
  rw [cum_succ]
  have : 0 ≤ w.getD n 0 := by
    rw [List.getD_eq_getElem?_getD]
    rcases hn : w[n]? with _ | x
    · exact le_rfl
    · exact h x (List.mem_of_getElem? hn)
  linarith

end Trng.Discrete
