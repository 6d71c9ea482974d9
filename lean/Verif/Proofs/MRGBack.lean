import Verif.Proofs.MRG
import Verif.Proofs.LinRec

/-! Helper lemmas: `backward` undoes a call. -/
namespace Trng.MRG
open IntMath Matrix LinRec

variable {n m : Nat}

/-- `K` is one more than the index of the last non-zero coefficient, or zero -/
structure LastCoeff (a : Fin n → Int) (K : Nat) : Prop where
  le : K ≤ n
  last : ∀ c : Fin n, c.val + 1 = K → a c ≠ 0
  zero : ∀ c : Fin n, K ≤ c.val → a c = 0

theorem exists_lastCoeff (a : Fin n → Int) : ∃ K, LastCoeff a K := by
  classical
  by_cases h : ∃ K, K ≤ n ∧ ∀ c : Fin n, K ≤ c.val → a c = 0
  · have hle := (Nat.find_spec h).1
    refine ⟨Nat.find h, hle, fun c hc h0 => ?_, (Nat.find_spec h).2⟩
    refine Nat.find_min h (m := Nat.find h - 1) (by omega) ⟨by omega, fun d hd => ?_⟩
    by_cases hdc : d = c
    · rw [hdc]; exact h0
    · have : d.val ≠ c.val := fun hh => hdc (Fin.ext hh)
      exact (Nat.find_spec h).2 d (by omega)
  · exact absurd ⟨n, le_refl _, fun c hc => absurd c.isLt (by omega)⟩ h

theorem find_desc {p : Fin n → Bool} {b : Fin n} (hb : p b = true) (hgt : ∀ c, b < c → p c = false) :
    ∀ l : List (Fin n), l.Pairwise (· > ·) → b ∈ l → l.find? p = some b
  | [], _, h => by simp at h
  | x :: l, hp, hmem => by
    rw [List.pairwise_cons] at hp
    rw [List.find?_cons]
    rcases List.mem_cons.1 hmem with rfl | hl
    · rw [hb]
    · rw [hgt x (hp.1 b hl)]
      exact find_desc hb hgt l hp.2 hl

theorem finRange_reverse_pairwise (n : Nat) : ((List.finRange n).reverse).Pairwise (· > ·) := by
  rw [List.pairwise_reverse]
  exact List.pairwise_lt_finRange n

theorem rd_ok {r : Fin n → Int} {i : Nat} (h : i < n) : rd r i = .ok (r ⟨i, h⟩) := by
  unfold rd; rw [dif_pos h]

theorem backFold_spec [Fact m.Prime] (hm : m ≤ 2147483647) {e : MRG n} (h : Valid m e) {k w : Nat}
    (hk : k < n) (hw : w + k < n) :
    ∀ (l : List (Fin k)) (t : Int), InR m t → ∃ t', l.foldlM (fun t (j : Fin k) => (do
        let x ← rd e.r (w + 1 + j.val)
        subMod t (mulMod (e.a ⟨j.val, by omega⟩) x m) m : Res Int)) t = .ok t' ∧ InR m t' ∧
      (t' : ZMod m) = t - (l.map fun j : Fin k => ((e.a ⟨j.val, by omega⟩ : Int) : ZMod m) *
        ((e.r ⟨w + 1 + j.val, by omega⟩ : Int) : ZMod m)).sum
  | [], t, ht => ⟨t, rfl, ht, by simp⟩
  | j :: l, t, ht => by
    rw [List.foldlM_cons]
    rw [rd_ok (show w + 1 + j.val < n by omega), Res.bind_ok]
    obtain ⟨h1, h2⟩ := mulMod_spec (m := m) hm (h.a ⟨j.val, by omega⟩).1 (h.r ⟨w + 1 + j.val, by omega⟩).1
    obtain ⟨d, h3, h4, h5⟩ := subMod_spec hm ht h1
    rw [h3, Res.bind_ok]
    obtain ⟨t', h6, h7, h8⟩ := backFold_spec hm h hk hw l d h4
    refine ⟨t', h6, h7, ?_⟩
    rw [h8, h5, h2, List.map_cons, List.sum_cons]
    ring

theorem backValue_spec [Fact m.Prime] (hm : m ≤ 2147483647) {e : MRG n} (h : Valid m e) {K : Nat}
    (hK : LastCoeff e.a K) (h5 : n = 5 → K = 0 ∨ K = 5) :
    ∃ t, e.backValue m = .ok t ∧ InR m t ∧ (K = 0 → t = 0) ∧
      ∀ hp : 0 < K, ((e.a ⟨K - 1, by have := hK.le; omega⟩ : Int) : ZMod m) * t =
        ((e.r ⟨n - K, by have := hK.le; omega⟩ : Int) : ZMod m) - ∑ j : Fin (K - 1),
          ((e.a ⟨j.val, by have := hK.le; omega⟩ : Int) : ZMod m) *
          ((e.r ⟨n - K + 1 + j.val, by have := hK.le; omega⟩ : Int) : ZMod m) := by
  have hle := hK.le
  have m2 : 2 ≤ m := (Fact.out : m.Prime).two_le
  unfold backValue
  rcases Nat.eq_zero_or_pos K with rfl | hp
  · have : (List.finRange n).reverse.find? (fun k => decide (e.a k ≠ 0)) = none := by
      rw [List.find?_eq_none]
      intro x _
      simp [hK.zero x (Nat.zero_le _)]
    rw [this]
    exact ⟨0, rfl, ⟨le_refl _, by omega⟩, fun _ => rfl, fun hp => absurd hp (by omega)⟩
  · have : (List.finRange n).reverse.find? (fun k => decide (e.a k ≠ 0)) = some ⟨K - 1, by omega⟩ := by
      refine find_desc ?_ ?_ _ (finRange_reverse_pairwise n) (by simp)
      · simp only [decide_eq_true_eq]
        exact hK.last _ (by show K - 1 + 1 = K; omega)
      · intro c hc
        rw [Fin.lt_def] at hc
        simp only [decide_eq_false_iff_not, not_not]
        exact hK.zero c (by dsimp only at hc; omega)
    rw [this]
    have hwin : win n (K - 1) = n - K := by
      unfold win
      split
      · rename_i hc
        rcases h5 hc.1 with h0 | h0 <;> omega
      · omega
    dsimp only
    rw [hwin, rd_ok (show n - K < n by omega), Res.bind_ok]
    obtain ⟨t, h1, h2, h3⟩ := backFold_spec hm h (k := K - 1) (w := n - K) (by omega) (by omega)
      (List.finRange (K - 1)) _ (h.r ⟨n - K, by omega⟩)
    rw [h1, Res.bind_ok]
    have hne := hK.last ⟨K - 1, by omega⟩ (by show K - 1 + 1 = K; omega)
    obtain ⟨i, h4, h5', h6⟩ := inv_spec hm (h.a ⟨K - 1, by omega⟩) hne
    rw [h4, Res.bind_ok]
    obtain ⟨h7, h8⟩ := mulMod_spec (m := m) hm h2.1 h5'.1
    refine ⟨_, rfl, h7, fun h0 => absurd h0 (by omega), fun _ => ?_⟩
    rw [h8, h3, ← List.ofFn_eq_map, List.sum_ofFn]
    linear_combination ((e.r ⟨n - K, by omega⟩ : ZMod m) - ∑ j : Fin (K - 1),
          ((e.a ⟨j.val, by omega⟩ : Int) : ZMod m) * ((e.r ⟨n - K + 1 + j.val, by omega⟩ : Int) : ZMod m)) * h6

theorem backward_ok [Fact m.Prime] (hm : m ≤ 2147483647) {e : MRG n} (h : Valid m e) :
    ∃ e', e.backward m = .ok e' ∧ Valid m e' := by
  have m2 : 2 ≤ m := (Fact.out : m.Prime).two_le
  have key : ∃ t, e.backValue m = .ok t ∧ InR m t := by
    unfold backValue
    split
    · exact ⟨0, rfl, le_refl _, by omega⟩
    · rename_i k hk
      have hne : e.a k ≠ 0 := by simpa using List.find?_some hk
      have hkn := k.isLt
      have hw : win n k.val + k.val < n := by unfold win; split <;> omega
      rw [rd_ok (show win n k.val < n by omega), Res.bind_ok]
      obtain ⟨t, h1, h2, -⟩ := backFold_spec hm h (k := k.val) (w := win n k.val) hkn hw
        (List.finRange k.val) _ (h.r ⟨win n k.val, by omega⟩)
      rw [h1, Res.bind_ok]
      obtain ⟨i, h4, h5, -⟩ := inv_spec hm (h.a k) hne
      rw [h4, Res.bind_ok]
      exact ⟨_, rfl, (mulMod_spec (m := m) hm h2.1 h5.1).1⟩
  obtain ⟨t, h1, h2⟩ := key
  refine ⟨⟨e.a, fun i => if h : i.val + 1 < n then e.r ⟨i.val + 1, h⟩ else t⟩,
    by unfold backward; rw [h1, Res.bind_ok]; rfl, h.a, fun i => ?_⟩
  dsimp only
  split
  · exact h.r _
  · exact h2

theorem backwardN_ok [Fact m.Prime] (hm : m ≤ 2147483647) {e : MRG n} (h : Valid m e) (l : Nat) :
    ∃ e', backwardN m l e = .ok e' ∧ Valid m e' := by
  induction l generalizing e with
  | zero => exact ⟨e, rfl, h⟩
  | succ l ih =>
    obtain ⟨e1, h1, h2⟩ := backward_ok hm h
    unfold backwardN
    rw [h1]
    exact ih h2

/-! ### the sequence behind an engine -/

/-- the oldest stored value after `i` calls -/
def oldest (m : Nat) (e : MRG n) (hn : 0 < n) (i : Nat) : ZMod m :=
  ((((step m)^[i] e).r ⟨n - 1, by omega⟩ : Int) : ZMod m)

theorem shift_r (e : MRG n) (d i : Nat) (h : i + d < n) :
    ((step m)^[d] e).r ⟨i + d, h⟩ = e.r ⟨i, by omega⟩ := by
  induction d generalizing i with
  | zero => rfl
  | succ d ih =>
    rw [Function.iterate_succ_apply']
    unfold step
    dsimp only
    rw [if_neg (by omega)]
    exact ih i (by omega)

theorem iterate_r_oldest (e : MRG n) (hn : 0 < n) (j : Nat) (i : Fin n) :
    ((((step m)^[j] e).r i : Int) : ZMod m) = oldest m e hn (n - 1 + j - i.val) := by
  unfold oldest
  rw [show n - 1 + j - i.val = (n - 1 - i.val) + j by omega, Function.iterate_add_apply]
  have := shift_r (m := m) ((step m)^[j] e) (n - 1 - i.val) i.val (by omega)
  simp only [show i.val + (n - 1 - i.val) = n - 1 by omega] at this
  rw [this]

theorem oldest_rec (hm : IsEngineModulus m) (hn : n ≤ 5) (hn0 : 0 < n) {e : MRG n} (h : Valid m e) (i : Nat) :
    oldest m e hn0 (i + n) = ∑ c : Fin n, ((e.a c : Int) : ZMod m) * oldest m e hn0 (i + n - 1 - c.val) := by
  have h1 := iterate_r_oldest (m := m) e hn0 (i + 1) ⟨0, hn0⟩
  rw [show n - 1 + (i + 1) - (⟨0, hn0⟩ : Fin n).val = i + n by show n - 1 + (i + 1) - 0 = _; omega] at h1
  rw [← h1, Function.iterate_succ_apply', step_r hm hn (iterate_valid hm hn h i), if_pos rfl, ZMod.intCast_mod]
  push_cast
  refine Finset.sum_congr rfl fun c _ => ?_
  rw [iterate_r_oldest e hn0 i c, iterate_a, show n - 1 + i - c.val = i + n - 1 - c.val by omega]

/-- `backward` undoes the last of at least `n - K + 1` calls. -/
theorem backward_iterate [Fact m.Prime] (hm : IsEngineModulus m) (hn : n ≤ 5) {e : MRG n} (h : Valid m e)
    {K : Nat} (hK : LastCoeff e.a K) (h5 : n = 5 → K = 0 ∨ K = 5) (j : Nat) (hj : n - K ≤ j) :
    ((step m)^[j + 1] e).backward m = .ok ((step m)^[j] e) := by
  obtain ⟨m1, m2⟩ := engineModulus_bounds hm
  have hle := hK.le
  have hv := iterate_valid hm hn h (j + 1)
  have hv' := iterate_valid hm hn h j
  have hK' : LastCoeff ((step m)^[j + 1] e).a K := by rw [iterate_a]; exact hK
  obtain ⟨t, h1, h2, h3, h4⟩ := backValue_spec (by omega) hv hK' h5
  unfold backward
  rw [h1, Res.bind_ok]
  show Res.ok _ = _
  congr 1
  refine MRG.ext (by rw [iterate_a, iterate_a]) (funext fun i => ?_)
  dsimp only
  split
  · rename_i hi
    have := shift_r (m := m) ((step m)^[j] e) 1 i.val hi
    rw [← Function.iterate_add_apply, Nat.add_comm] at this
    exact this
  · rename_i hi
    have hn0 : 0 < n := by have := i.isLt; omega
    have hn1 : n - 1 < n := by omega
    have hii : i = ⟨n - 1, hn1⟩ := Fin.ext (by show i.val = n - 1; omega)
    rw [hii]
    clear hii hi i
    refine h2.inj (hv'.r _) ?_
    rw [iterate_r_oldest e hn0 j ⟨n - 1, hn1⟩]
    rw [show n - 1 + j - (⟨n - 1, hn1⟩ : Fin n).val = j by show n - 1 + j - (n - 1) = j; omega]
    have hrec := fun i => oldest_rec hm hn hn0 h i
    rcases Nat.eq_zero_or_pos K with rfl | hp
    · rw [h3 rfl, Int.cast_zero]
      have := hrec (j - n)
      rw [show j - n + n = j by omega] at this
      rw [this]
      symm
      refine Finset.sum_eq_zero fun c _ => ?_
      rw [hK.zero c (Nat.zero_le _), Int.cast_zero, zero_mul]
    · have h4 := h4 hp
      have h6 := hrec (j + K - n)
      rw [show j + K - n + n = j + K by omega] at h6
      simp only [iterate_r_oldest e hn0, iterate_a] at h4
      have hne := hK.last ⟨K - 1, by omega⟩ (by show K - 1 + 1 = K; omega)
      have hne' : ((e.a ⟨K - 1, by omega⟩ : Int) : ZMod m) ≠ 0 := fun hc =>
        hne (((h.a _).cast_eq_zero).1 hc)
      apply mul_left_cancel₀ hne'
      rw [h4, show n - 1 + (j + 1) - (n - K) = j + K by omega, h6]
      -- only the first K terms of the sum are present
      obtain ⟨d, rfl⟩ : ∃ d, n = K + d := ⟨n - K, by omega⟩
      obtain ⟨k, rfl⟩ : ∃ k, K = k + 1 := ⟨K - 1, by omega⟩
      rw [Fin.sum_univ_add]
      have z : ∑ i : Fin d, ((e.a (Fin.natAdd (k + 1) i) : Int) : ZMod m) *
          oldest m e hn0 (j + (k + 1) - 1 - (Fin.natAdd (k + 1) i).val) = 0 := by
        refine Finset.sum_eq_zero fun c _ => ?_
        rw [hK.zero (Fin.natAdd (k + 1) c) (by simp), Int.cast_zero, zero_mul]
      rw [z, add_zero, Fin.sum_univ_castSucc]
      have e1 : ∀ i : Fin k, k + 1 + d - 1 + (j + 1) - (k + 1 + d - (k + 1) + 1 + i.val) = j + (k + 1) - 1 - i.val := by
        intro i; omega
      have e2 : ∀ i : Fin k, (Fin.castAdd d i.castSucc : Fin (k + 1 + d)) = ⟨i.val, by omega⟩ := fun i => rfl
      have e3 : (Fin.castAdd d (Fin.last k) : Fin (k + 1 + d)) = ⟨k + 1 - 1, by omega⟩ := rfl
      simp only [e2, e3]
      rw [show j + (k + 1) - 1 - (⟨k + 1 - 1, by omega⟩ : Fin (k + 1 + d)).val = j by
        show j + (k + 1) - 1 - k = j; omega]
      have e4 : (∑ i : Fin (k + 1 - 1), ((e.a ⟨i.val, by omega⟩ : Int) : ZMod m) *
          oldest m e hn0 (k + 1 + d - 1 + (j + 1) - (k + 1 + d - (k + 1) + 1 + i.val))) =
          ∑ i : Fin k, ((e.a ⟨i.val, by omega⟩ : Int) : ZMod m) * oldest m e hn0 (j + (k + 1) - 1 - i.val) :=
        Finset.sum_congr rfl fun i _ => by rw [e1 i]
      rw [e4]
      ring

theorem backwardN_iterate [Fact m.Prime] (hm : IsEngineModulus m) (hn : n ≤ 5) {e : MRG n} (h : Valid m e)
    {K : Nat} (hK : LastCoeff e.a K) (h5 : n = 5 → K = 0 ∨ K = 5) (l j : Nat) (hj : n - K ≤ j) :
    backwardN m l ((step m)^[j + l] e) = .ok ((step m)^[j] e) := by
  induction l with
  | zero => rfl
  | succ l ih =>
    unfold backwardN
    rw [← Nat.add_assoc, backward_iterate hm hn h hK h5 (j + l) (by omega)]
    exact ih

end Trng.MRG
