import Verif.Proofs.Alias
import Verif.Proofs.Modulo
import Verif.Proofs.UniformAcc
import Verif.Spec.Law
import Mathlib.MeasureTheory.Measure.Lebesgue.Basic

/-! Helper lemmas: drawing from a discrete_dist and from an alias table. -/
namespace Trng
open Discrete FP Trng.Uniform MeasureTheory

theorem construct_tree {α : Type} [Field α] [LinearOrder α] (rnd : α → α) (w : List α) (hw : w ≠ []) :
    ∃ T, WTree.construct rnd w = some T ∧ T.N = w.length ∧ T.offset = 2 ^ T.layers - 1 ∧ w.length ≤ 2 ^ T.layers ∧
      T.layers = IntMath.log2Ceil w.length ∧ IsTree rnd w T.layers T.P := by
  have hl : 0 < w.length := List.length_pos_iff.2 hw
  have hle : w.length ≤ 2 ^ IntMath.log2Ceil w.length := by
    rw [IntMath.log2Ceil_eq hl]; exact Nat.le_pow_clog (by omega) _
  obtain ⟨P, hP, ht⟩ := updateAll_spec (rnd := rnd) hl hle
  refine ⟨⟨P, w.length, IntMath.log2Ceil w.length, 2 ^ IntMath.log2Ceil w.length - 1⟩, ?_, rfl, rfl, hle, rfl, ht⟩
  simp only [WTree.construct, pow2_eq]
  rw [hP]
  rfl

theorem tree_root {α : Type} [Field α] [LinearOrder α] [IsStrictOrderedRing α] {w : List α} (hw : w ≠ []) {L : Nat} {P : List α} (hwL : w.length ≤ 2 ^ L)
    (hP : IsTree id w L P) : P[0]? = some w.sum := by
  have hl : 0 < w.length := List.length_pos_iff.2 hw
  have h0 : 0 < P.length := by rw [hP.len]; omega
  have := hP.sum L 0 (by omega) 0 (by norm_num)
  rw [pow_zero, Nat.sub_self, Nat.add_zero, Nat.zero_add, Nat.one_mul, Nat.zero_mul, cum_zero, sub_zero, cum_past hwL, ← sum_eq_cum] at this
  rw [List.getElem?_eq_getElem h0, ← List.getD_eq_getElem _ 0 h0, this]


theorem take_sum {α : Type} [Field α] [LinearOrder α] [IsStrictOrderedRing α] (w : List α) (k : Nat) : (w.take k).sum = cum w k := by
  rw [sum_eq_cum]
  have : ∀ i, i ≤ k → i ≤ w.length → cum (w.take k) i = cum w i := by
    intro i h1 h2
    refine Finset.sum_congr rfl fun j hj => ?_
    have := Finset.mem_range.1 hj
    rw [List.getD_eq_getElem?_getD, List.getD_eq_getElem?_getD, List.getElem?_take_of_lt (by omega)]
  rw [List.length_take, this _ (min_le_left _ _) (min_le_right _ _)]
  rcases Nat.le_total k w.length with h | h
  · rw [min_eq_left h]
  · rw [min_eq_right h, cum_past h]

theorem draw_spec {α : Type} [Field α] [LinearOrder α] [IsStrictOrderedRing α] {rnd : α → α} {w : List α} {T : WTree α} {c : α}
    (htree : IsTree id w T.layers T.P) (hne : w ≠ []) (hle : w.length ≤ 2 ^ T.layers) (hoff : T.offset = 2 ^ T.layers - 1)
    {Good : α → Prop} (hsub : ∀ u l, Good u → l ∈ T.P → l ≤ u → rnd (u - l) = u - l ∧ Good (u - l)) (hg : Good (rnd (c * w.sum)))
    (h0 : 0 ≤ rnd (c * w.sum)) (h1 : rnd (c * w.sum) < w.sum) :
    ∃ k : Nat, T.draw rnd c = some (k : ℤ) ∧ k < w.length ∧ cum w k ≤ rnd (c * w.sum) ∧ rnd (c * w.sum) < cum w (k + 1) := by
  have hroot := tree_root hne hle htree
  have hp := Nat.lt_two_pow_self (n := T.layers)
  obtain ⟨k, hk, hkl, hk1, hk2⟩ := descend_spec (rnd := rnd) htree hsub (U := rnd (c * w.sum)) T.layers (T.offset + 1) 0 0
    (by omega) (by omega) (by norm_num) (by rw [Nat.zero_mul, cum_zero, sub_zero]; exact hg) (by rw [Nat.zero_mul, cum_zero]; exact h0)
    (by rw [Nat.zero_add, Nat.one_mul, cum_past hle, ← sum_eq_cum]; exact h1)
  refine ⟨k, ?_, hkl, hk1, hk2⟩
  rw [Nat.zero_mul, cum_zero, sub_zero, pow_zero, Nat.sub_self, Nat.add_zero] at hk
  rw [WTree.draw, hroot, Option.bind_eq_bind, Option.bind_some, hoff, ← hoff, hoff]
  rw [hoff] at hk
  rw [hk]
  show some (((2 ^ T.layers - 1 + k : Nat) : ℤ) - ((2 ^ T.layers - 1 : Nat) : ℤ)) = some (k : ℤ)
  congr 1
  omega

theorem _root_.Trng.Discrete.IsTree.mem_cum {α : Type} [Field α] [LinearOrder α] [IsStrictOrderedRing α] {w : List α} {L : Nat} {P : List α} (hP : IsTree id w L P)
    (hle : w.length ≤ 2 ^ L) {l : α} (hl : l ∈ P) : ∃ a b, a ≤ b ∧ l = cum w b - cum w a := by
  obtain ⟨i, hi, rfl⟩ := List.mem_iff_getElem.1 hl
  rw [hP.len] at hi
  have h1 : 2 ^ Nat.log 2 (i + 1) ≤ i + 1 := Nat.pow_log_le_self 2 (by omega)
  have h2 : i + 1 < 2 ^ (Nat.log 2 (i + 1) + 1) := Nat.lt_pow_succ_log_self (by omega) _
  rw [Nat.pow_succ] at h2
  have hlog : Nat.log 2 (i + 1) ≤ L := by
    have : i + 1 < 2 ^ (L + 1) := by rw [Nat.pow_succ]; have := Nat.one_le_two_pow (n := L); omega
    exact Nat.lt_succ_iff.1 (Nat.log_lt_of_lt_pow (by omega) this)
  have hs := hP.sum (L - Nat.log 2 (i + 1)) (Nat.log 2 (i + 1)) (by omega) (i + 1 - 2 ^ Nat.log 2 (i + 1)) (by omega)
  rw [show 2 ^ Nat.log 2 (i + 1) - 1 + (i + 1 - 2 ^ Nat.log 2 (i + 1)) = i by omega,
    List.getD_eq_getElem _ _ (by rw [hP.len]; exact hi)] at hs
  exact ⟨_, _, Nat.mul_le_mul_right _ (Nat.le_succ _), hs⟩

theorem sum_scaled (m : List Nat) (x : ℚ) : (m.map fun n : Nat => (n : ℚ) * x).sum = (m.sum : ℚ) * x := by
  induction m with
  | nil => simp
  | cons a m ih => rw [List.map_cons, List.sum_cons, ih, List.sum_cons]; push_cast; ring

/-- Differences with a multiple of `2^e` are exact in the range of the `p`-digit multiples of `2^e`. -/
theorem rep_sub {p : Nat} {u : ℚ} {n : Nat} {e : ℤ} (hr : Rep p u) (h0 : 0 ≤ u) (h1 : u < 2 ^ p * 2 ^ e) (hle : (n : ℚ) * 2 ^ e ≤ u) :
    Rep p (u - n * 2 ^ e) := by
  obtain ⟨k, f, hk, rfl⟩ := hr
  have hze := two_zpow_pos e
  have hzf := two_zpow_pos f
  rcases le_total e f with hef | hef
  · -- a multiple of 2^e below 2^p * 2^e
    obtain ⟨d, hd⟩ := Int.eq_ofNat_of_zero_le (sub_nonneg.2 hef)
    have hf : (2 : ℚ) ^ f = 2 ^ d * 2 ^ e := by
      rw [← zpow_natCast, ← zpow_split]; congr 1; omega
    refine ⟨k * 2 ^ d - n, e, ?_, by rw [hf]; push_cast; ring⟩
    have hz : ((k * 2 ^ d - n : ℤ) : ℚ) * 2 ^ e = k * 2 ^ f - n * 2 ^ e := by rw [hf]; push_cast; ring
    have a : (0 : ℚ) ≤ ((k * 2 ^ d - n : ℤ) : ℚ) * 2 ^ e := by rw [hz]; linarith
    have b : ((k * 2 ^ d - n : ℤ) : ℚ) * 2 ^ e < 2 ^ p * 2 ^ e := by
      rw [hz]
      have : (0 : ℚ) ≤ n * 2 ^ e := by positivity
      linarith
    have a' : (0 : ℤ) ≤ k * 2 ^ d - n := by
      have := nonneg_of_mul_nonneg_left a hze
      exact_mod_cast this
    have b' : (k * 2 ^ d - n : ℤ) < 2 ^ p := by
      have := lt_of_mul_lt_mul_right b hze.le
      exact_mod_cast this
    rw [abs_of_nonneg a']; exact b'
  · obtain ⟨d, hd⟩ := Int.eq_ofNat_of_zero_le (sub_nonneg.2 hef)
    have he : (2 : ℚ) ^ e = 2 ^ d * 2 ^ f := by
      rw [← zpow_natCast, ← zpow_split]; congr 1; omega
    refine ⟨k - n * 2 ^ d, f, ?_, by rw [he]; push_cast; ring⟩
    have hz : ((k - n * 2 ^ d : ℤ) : ℚ) * 2 ^ f = k * 2 ^ f - n * 2 ^ e := by rw [he]; push_cast; ring
    have a : (0 : ℚ) ≤ ((k - n * 2 ^ d : ℤ) : ℚ) * 2 ^ f := by rw [hz]; linarith
    have a' : (0 : ℤ) ≤ k - n * 2 ^ d := by
      have := nonneg_of_mul_nonneg_left a hzf
      exact_mod_cast this
    have hk0 : (0 : ℤ) ≤ (n : ℤ) * 2 ^ d := by positivity
    rw [abs_lt] at hk
    rw [abs_of_nonneg a']
    linarith [hk.2]

/-- One column of the alias table. -/
theorem column_volume {N : Nat} (hN : 0 < N) {f : ℝ} (h0 : 0 ≤ f) (h1 : f ≤ 1) (i : Nat) (P Q : Prop) [Decidable P] [Decidable Q] :
    MeasurableSet {u : ℝ | (i : ℝ) ≤ u * N ∧ u * N < i + 1 ∧ if u * N - i ≤ f then P else Q} ∧
    volume {u : ℝ | (i : ℝ) ≤ u * N ∧ u * N < i + 1 ∧ if u * N - i ≤ f then P else Q} =
      ENNReal.ofReal (((if P then f else 0) + (if Q then 1 - f else 0)) / N) := by
  have hN' : (0 : ℝ) < N := by exact_mod_cast hN
  set A := {u : ℝ | (i : ℝ) ≤ u * N ∧ u * N < i + 1 ∧ u * N - i ≤ f} with hA
  set B := {u : ℝ | u * N < i + 1 ∧ f < u * N - i} with hB
  have mA : MeasurableSet A ∧ volume A = ENNReal.ofReal (f / N) := by
    rcases lt_or_eq_of_le h1 with hlt | heq
    · have : A = Set.Icc ((i : ℝ) / N) ((i + f) / N) := by
        ext u
        rw [hA, Set.mem_ofPred_eq, Set.mem_Icc, div_le_iff₀ hN', le_div_iff₀ hN']
        constructor
        · rintro ⟨a, b, c⟩; exact ⟨a, by linarith⟩
        · rintro ⟨a, b⟩; exact ⟨a, by linarith, by linarith⟩
      rw [this]
      exact ⟨measurableSet_Icc, by rw [Real.volume_Icc]; congr 1; ring⟩
    · have : A = Set.Ico ((i : ℝ) / N) ((i + f) / N) := by
        ext u
        rw [hA, Set.mem_ofPred_eq, Set.mem_Ico, div_le_iff₀ hN', lt_div_iff₀ hN']
        constructor
        · rintro ⟨a, b, c⟩; exact ⟨a, by linarith⟩
        · rintro ⟨a, b⟩; exact ⟨a, by linarith, by linarith⟩
      rw [this]
      exact ⟨measurableSet_Ico, by rw [Real.volume_Ico]; congr 1; ring⟩
  have mB : MeasurableSet B ∧ volume B = ENNReal.ofReal ((1 - f) / N) := by
    have : B = Set.Ioo ((i + f) / N) ((i + 1) / N) := by
      ext u
      rw [hB, Set.mem_ofPred_eq, Set.mem_Ioo, div_lt_iff₀ hN', lt_div_iff₀ hN']
      constructor
      · rintro ⟨a, b⟩; exact ⟨by linarith, a⟩
      · rintro ⟨a, b⟩; exact ⟨b, by linarith⟩
    rw [this]
    exact ⟨measurableSet_Ioo, by rw [Real.volume_Ioo]; congr 1; ring⟩
  have hset : {u : ℝ | (i : ℝ) ≤ u * N ∧ u * N < i + 1 ∧ if u * N - i ≤ f then P else Q} =
      (if P then A else ∅) ∪ (if Q then B else ∅) := by
    ext u
    rw [Set.mem_union, Set.mem_ofPred_eq]
    by_cases hu : u * N - i ≤ f
    · rw [if_pos hu]
      have nB : u ∉ B := by rw [hB, Set.mem_ofPred_eq]; intro hc; linarith [hc.2]
      have nQ : u ∉ (if Q then B else ∅) := by split_ifs <;> simp [nB]
      simp only [nQ, or_false]
      by_cases hP : P
      · rw [if_pos hP, hA, Set.mem_ofPred_eq]; tauto
      · rw [if_neg hP]; simp [hP]
    · rw [if_neg hu]
      have nA : u ∉ A := by rw [hA, Set.mem_ofPred_eq]; tauto
      have nP : u ∉ (if P then A else ∅) := by split_ifs <;> simp [nA]
      simp only [nP, false_or]
      by_cases hQ : Q
      · rw [if_pos hQ, hB, Set.mem_ofPred_eq]
        push Not at hu
        constructor
        · rintro ⟨a, b, c⟩; exact ⟨b, hu⟩
        · rintro ⟨a, b⟩; exact ⟨by linarith, a, hQ⟩
      · rw [if_neg hQ]; simp [hQ]
  have mP : MeasurableSet (if P then A else ∅) := by split_ifs; exacts [mA.1, MeasurableSet.empty]
  have mQ : MeasurableSet (if Q then B else ∅) := by split_ifs; exacts [mB.1, MeasurableSet.empty]
  have hdis : Disjoint (if P then A else ∅) (if Q then B else ∅) := by
    rw [Set.disjoint_left]
    intro u hu1 hu2
    have a : u ∈ A := by split_ifs at hu1 <;> simp_all
    have b : u ∈ B := by split_ifs at hu2 <;> simp_all
    rw [hA, Set.mem_ofPred_eq] at a
    rw [hB, Set.mem_ofPred_eq] at b
    linarith [a.2.2, b.2]
  have vP : volume (if P then A else ∅) = ENNReal.ofReal ((if P then f else 0) / N) := by
    split_ifs
    · exact mA.2
    · rw [measure_empty, zero_div, ENNReal.ofReal_zero]
  have vQ : volume (if Q then B else ∅) = ENNReal.ofReal ((if Q then 1 - f else 0) / N) := by
    split_ifs
    · exact mB.2
    · rw [measure_empty, zero_div, ENNReal.ofReal_zero]
  rw [hset]
  refine ⟨mP.union mQ, ?_⟩
  rw [measure_union hdis mQ, vP, vQ, ← ENNReal.ofReal_add, add_div]
  · apply div_nonneg _ hN'.le
    split_ifs
    · exact h0
    · exact le_rfl
  · apply div_nonneg _ hN'.le
    split_ifs
    · linarith
    · exact le_rfl

theorem alias_law {A : Alias ℝ} {N : Nat} {q p : Nat → ℝ} (hok : AliasOk N q A.F A.L) (hpos : 0 < N) (hN : A.N = N)
    (hq : ∀ k, k < N → q k = N * p k) (hp : ∀ k, N ≤ k → p k = 0) :
    Spec.DiscreteLaw (A.draw id Nat.floor) fun k => if 0 ≤ k then p k.toNat else 0 := by
  have hN' : (0 : ℝ) < N := by exact_mod_cast hpos
  have hdraw : ∀ u : ℝ, 0 ≤ u → u < 1 → ∃ i, i < N ∧ (i : ℝ) ≤ u * N ∧ u * N < i + 1 ∧
      A.draw id Nat.floor u = some (if u * N - i ≤ A.F.getD i 0 then (i : ℤ) else (A.L.getD i 0 : ℕ)) := by
    intro u h0 h1
    have hU : 0 ≤ u * N := mul_nonneg h0 hN'.le
    have hi : ⌊u * N⌋₊ < N := by
      rw [Nat.floor_lt hU]
      nlinarith
    have hF : A.F[⌊u * N⌋₊]? = some (A.F.getD ⌊u * N⌋₊ 0) := by
      rw [List.getElem?_eq_getElem (by rw [hok.lenF]; exact hi), List.getD_eq_getElem _ _ (by rw [hok.lenF]; exact hi)]
    have hL : A.L[⌊u * N⌋₊]? = some (A.L.getD ⌊u * N⌋₊ 0) := by
      rw [List.getElem?_eq_getElem (by rw [hok.lenL]; exact hi), List.getD_eq_getElem _ _ (by rw [hok.lenL]; exact hi)]
    refine ⟨⌊u * N⌋₊, hi, Nat.floor_le hU, Nat.lt_floor_add_one _, ?_⟩
    rw [Alias.draw, hN]
    simp only [id]
    rw [hF, hL]
    simp only [Option.bind_eq_bind, Option.bind_some]
    split_ifs <;> rfl
  refine ⟨fun u h0 h1 => ?_, fun k => ?_⟩
  · obtain ⟨i, -, -, -, h⟩ := hdraw u h0 h1
    rw [h]; rfl
  have hset : {u : ℝ | 0 ≤ u ∧ u < 1 ∧ A.draw id Nat.floor u = some k} =
      ⋃ i ∈ Finset.range N, {u : ℝ | (i : ℝ) ≤ u * N ∧ u * N < i + 1 ∧ if u * N - i ≤ A.F.getD i 0 then (i : ℤ) = k else ((A.L.getD i 0 : ℕ) : ℤ) = k} := by
    ext u
    simp only [Set.mem_ofPred_eq, Set.mem_iUnion, Finset.mem_range, exists_prop]
    constructor
    · rintro ⟨h0, h1, h2⟩
      obtain ⟨i, hi, a, b, c⟩ := hdraw u h0 h1
      refine ⟨i, hi, a, b, ?_⟩
      rw [c] at h2
      have := Option.some.inj h2
      split_ifs at this ⊢ <;> exact this
    · rintro ⟨i, hi, a, b, c⟩
      have h0 : 0 ≤ u := by
        by_contra hc
        have : u * N < 0 := mul_neg_of_neg_of_pos (not_le.1 hc) hN'
        have : (0 : ℝ) ≤ i := Nat.cast_nonneg i
        linarith
      have h1 : u < 1 := by
        by_contra hc
        have h2 : 1 * (N : ℝ) ≤ u * N := mul_le_mul_of_nonneg_right (not_lt.1 hc) hN'.le
        have h3 : ((i + 1 : ℕ) : ℝ) ≤ N := by exact_mod_cast hi
        push_cast at h3
        linarith
      refine ⟨h0, h1, ?_⟩
      obtain ⟨j, hj, a', b', c'⟩ := hdraw u h0 h1
      have hij : i = j := by
        have e1 : (i : ℝ) < j + 1 := lt_of_le_of_lt a b'
        have e2 : (j : ℝ) < i + 1 := lt_of_le_of_lt a' b
        have e1' : i < j + 1 := by exact_mod_cast e1
        have e2' : j < i + 1 := by exact_mod_cast e2
        omega
      subst hij
      rw [c']
      congr 1
      split_ifs at c ⊢ <;> exact c
  rw [hset, measure_biUnion_finset]
  · have e : ∀ i ∈ Finset.range N, volume {u : ℝ | (i : ℝ) ≤ u * N ∧ u * N < i + 1 ∧ if u * N - i ≤ A.F.getD i 0 then (i : ℤ) = k else ((A.L.getD i 0 : ℕ) : ℤ) = k} =
        ENNReal.ofReal (((if (i : ℤ) = k then A.F.getD i 0 else 0) + (if ((A.L.getD i 0 : ℕ) : ℤ) = k then 1 - A.F.getD i 0 else 0)) / N) := by
      intro i hi
      have hi' := Finset.mem_range.1 hi
      exact (column_volume hpos (hok.nonneg i hi') (hok.le_one i hi') i _ _).2
    rw [Finset.sum_congr rfl e, ← ENNReal.ofReal_sum_of_nonneg]
    · congr 1
      rw [← Finset.sum_div, Finset.sum_add_distrib]
      split_ifs with hk
      · obtain ⟨n, rfl⟩ := Int.eq_ofNat_of_zero_le hk
        simp only [Nat.cast_inj, Int.toNat_natCast]
        rw [Finset.sum_ite_eq' (Finset.range N) n]
        by_cases hn : n < N
        · rw [if_pos (Finset.mem_range.2 hn), hok.mass n hn, hq n hn, mul_div_cancel_left₀ _ hN'.ne']
        · rw [if_neg (fun hc => hn (Finset.mem_range.1 hc)), hp n (not_lt.1 hn)]
          have : ∑ i ∈ Finset.range N, (if A.L.getD i 0 = n then 1 - A.F.getD i 0 else 0) = 0 := by
            apply Finset.sum_eq_zero
            intro i hi
            have := hok.target i (Finset.mem_range.1 hi)
            rw [if_neg (by omega)]
          rw [this, zero_add, zero_div]
      · have z1 : ∑ i ∈ Finset.range N, (if (i : ℤ) = k then A.F.getD i 0 else 0) = 0 := by
          apply Finset.sum_eq_zero
          intro i _
          rw [if_neg (by omega)]
        have z2 : ∑ i ∈ Finset.range N, (if ((A.L.getD i 0 : ℕ) : ℤ) = k then 1 - A.F.getD i 0 else 0) = 0 := by
          apply Finset.sum_eq_zero
          intro i _
          rw [if_neg (by omega)]
        rw [z1, z2, zero_add, zero_div]
    · intro i hi
      have hi' := Finset.mem_range.1 hi
      have h0 := hok.nonneg i hi'
      have h1 := hok.le_one i hi'
      apply div_nonneg _ hN'.le
      apply add_nonneg
      · split_ifs
        · exact h0
        · exact le_rfl
      · split_ifs
        · linarith
        · exact le_rfl
  · intro i _ j _ hij
    rw [Function.onFun, Set.disjoint_left]
    rintro u ⟨a, b, -⟩ ⟨a', b', -⟩
    apply hij
    have e1 : (i : ℝ) < j + 1 := lt_of_le_of_lt a b'
    have e2 : (j : ℝ) < i + 1 := lt_of_le_of_lt a' b
    have e1' : i < j + 1 := by exact_mod_cast e1
    have e2' : j < i + 1 := by exact_mod_cast e2
    omega
  · intro i hi
    have hi' := Finset.mem_range.1 hi
    exact (column_volume hpos (hok.nonneg i hi') (hok.le_one i hi') i _ _).1

end Trng
