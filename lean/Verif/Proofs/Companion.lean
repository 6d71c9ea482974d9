import Verif.Proofs.MRGSplit
import Verif.Proofs.PowMod
import Mathlib.GroupTheory.OrderOfElement
import Mathlib.Data.ZMod.Basic
import Mathlib.Data.Fintype.BigOperators

/-! The ring generated by the companion matrix: relation, independence of the powers, and the consequences
of a primitive element. -/
namespace Trng.MRG
open IntMath Matrix PowMod

variable {n m : Nat}

theorem comp_mul_apply (a : Fin n → Int) (B : Matrix (Fin n) (Fin n) (ZMod m)) (i j : Fin n) :
    (comp m a * B) i j = if i.val = 0 then ∑ c, ((a c : Int) : ZMod m) * B c j else B ⟨i.val - 1, by omega⟩ j := by
  rw [Matrix.mul_apply]
  simp only [comp, companion]
  by_cases hi : i.val = 0
  · simp only [if_pos hi]
  · simp only [if_neg hi]
    rw [Finset.sum_eq_single (⟨i.val - 1, by omega⟩ : Fin n)]
    · rw [if_pos (by show i.val - 1 + 1 = i.val; omega), Int.cast_one, one_mul]
    · intro b _ hb
      rw [if_neg (fun hc => hb (Fin.ext (by show b.val = i.val - 1; omega))), Int.cast_zero, zero_mul]
    · intro hc; exact absurd (Finset.mem_univ _) hc

/-- The rows of the powers are shifted copies of each other. -/
theorem comp_pow_apply (a : Fin n → Int) (k : Nat) (i j : Fin n) :
    (comp m a ^ k) i j = if i.val ≤ k then (comp m a ^ (k - i.val)) ⟨0, by have := i.isLt; omega⟩ j
      else if j.val + k = i.val then 1 else 0 := by
  induction k generalizing i with
  | zero =>
    by_cases hi : i.val = 0
    · rw [if_pos (by omega)]
      have : i = ⟨0, by have := i.isLt; omega⟩ := Fin.ext hi
      rw [Nat.zero_sub, ← this]
    · rw [if_neg (by omega), pow_zero, Matrix.one_apply]
      by_cases hij : i = j
      · rw [if_pos hij, if_pos (by rw [hij]; omega)]
      · rw [if_neg hij, if_neg (fun h => hij (Fin.ext (by omega)))]
  | succ k ih =>
    by_cases hi : i.val = 0
    · rw [if_pos (by omega)]
      have : i = ⟨0, by have := i.isLt; omega⟩ := Fin.ext hi
      rw [show k + 1 - i.val = k + 1 by omega, ← this]
    · rw [pow_succ', comp_mul_apply, if_neg hi, ih]
      simp only
      by_cases hk : i.val ≤ k + 1
      · rw [if_pos (show i.val - 1 ≤ k by omega), if_pos hk, show k - (i.val - 1) = k + 1 - i.val by omega]
      · rw [if_neg (show ¬ i.val - 1 ≤ k by omega), if_neg hk]
        by_cases hj : j.val + k = i.val - 1
        · rw [if_pos hj, if_pos (by omega)]
        · rw [if_neg hj, if_neg (by omega)]

/-- The companion matrix satisfies its characteristic equation. -/
theorem comp_rel (a : Fin n → Int) :
    comp m a ^ n = ∑ c : Fin n, ((a c : Int) : ZMod m) • comp m a ^ (n - 1 - c.val) := by
  ext i j
  have hi := i.isLt
  have h1 : (comp m a ^ n) i j = ∑ c, ((a c : Int) : ZMod m) * (comp m a ^ (n - 1 - i.val)) c j := by
    rw [comp_pow_apply, if_pos (by omega), show n - i.val = n - 1 - i.val + 1 by omega, pow_succ', comp_mul_apply,
      if_pos rfl]
  rw [h1, Matrix.sum_apply]
  refine Finset.sum_congr rfl fun c _ => ?_
  rw [Matrix.smul_apply, smul_eq_mul]
  congr 1
  have hc := c.isLt
  rw [comp_pow_apply a _ c j, comp_pow_apply a _ i j]
  by_cases h : c.val ≤ n - 1 - i.val
  · rw [if_pos h, if_pos (by omega), show n - 1 - i.val - c.val = n - 1 - c.val - i.val by omega]
  · rw [if_neg h, if_neg (show ¬ i.val ≤ n - 1 - c.val by omega)]
    by_cases hj : j.val + (n - 1 - i.val) = c.val
    · rw [if_pos hj, if_pos (by omega)]
    · rw [if_neg hj, if_neg (by omega)]

/-- polynomials of degree less than `n` in the companion matrix -/
def pol (m : Nat) (a : Fin n → Int) (l : Fin n → ZMod m) : Matrix (Fin n) (Fin n) (ZMod m) :=
  ∑ i, l i • comp m a ^ i.val

theorem pol_last (a : Fin n → Int) (l : Fin n → ZMod m) (i : Fin n) :
    pol m a l ⟨n - 1, by have := i.isLt; omega⟩ ⟨n - 1 - i.val, by have := i.isLt; omega⟩ = l i := by
  have hi := i.isLt
  unfold pol
  rw [Matrix.sum_apply, Finset.sum_eq_single i]
  · rw [Matrix.smul_apply, smul_eq_mul, comp_pow_apply]
    simp only
    by_cases h : n - 1 ≤ i.val
    · rw [if_pos h, show i.val - (n - 1) = 0 by omega, pow_zero, Matrix.one_apply, if_pos, mul_one]
      exact Fin.ext (by show 0 = n - 1 - i.val; omega)
    · rw [if_neg h, if_pos (by omega), mul_one]
  · intro b _ hb
    have hbv : b.val ≠ i.val := fun h => hb (Fin.ext h)
    have hbl := b.isLt
    rw [Matrix.smul_apply, smul_eq_mul, comp_pow_apply]
    simp only
    by_cases h : n - 1 ≤ b.val
    · rw [if_pos h, show b.val - (n - 1) = 0 by omega, pow_zero, Matrix.one_apply, if_neg, mul_zero]
      intro hc
      have := congrArg Fin.val hc
      dsimp only at this
      omega
    · rw [if_neg h, if_neg (by omega), mul_zero]
  · intro hc; exact absurd (Finset.mem_univ _) hc

theorem pol_injective (a : Fin n → Int) : Function.Injective (pol m a) := by
  intro l l' h
  funext i
  rw [← pol_last a l i, ← pol_last a l' i, h]

theorem pol_sub (a : Fin n → Int) (l l' : Fin n → ZMod m) : pol m a (l - l') = pol m a l - pol m a l' := by
  simp only [pol, Pi.sub_apply, sub_smul, Finset.sum_sub_distrib]

theorem pol_smul (a : Fin n → Int) (c : ZMod m) (l : Fin n → ZMod m) : pol m a (c • l) = c • pol m a l := by
  simp only [pol, Pi.smul_apply, Finset.smul_sum, smul_smul, smul_eq_mul]

theorem pol_zero (a : Fin n → Int) : pol m a 0 = 0 := by simp [pol]

theorem pol_one (a : Fin n → Int) (hn : 0 < n) : pol m a (Pi.single ⟨0, hn⟩ 1) = 1 := by
  unfold pol
  rw [Finset.sum_eq_single (⟨0, hn⟩ : Fin n)]
  · simp
  · intro b _ hb; simp [Pi.single_eq_of_ne hb]
  · intro hc; exact absurd (Finset.mem_univ _) hc

/-! ### computing powers -/

theorem eval_eq_sum {A : Type*} [Ring A] (x : A) : ∀ l : List Nat,
    eval x l = ∑ i ∈ Finset.range l.length, ((l.getD i 0 : Nat) : A) * x ^ i
  | [] => by simp [eval]
  | c :: l => by
    rw [eval, eval_eq_sum x l, List.length_cons, Finset.sum_range_succ', Finset.mul_sum, add_comm]
    congr 1
    · refine Finset.sum_congr rfl fun i _ => ?_
      rw [List.getD_cons_succ, ← mul_assoc, (Nat.cast_commute _ x).eq.symm, mul_assoc, pow_succ']
    · simp

theorem natCast_mul_eq_smul (k : Nat) (X : Matrix (Fin n) (Fin n) (ZMod m)) :
    ((k : Nat) : Matrix (Fin n) (Fin n) (ZMod m)) * X = (k : ZMod m) • X := by
  rw [← nsmul_eq_mul]
  ext i j
  rw [Matrix.smul_apply, Matrix.smul_apply, nsmul_eq_mul, smul_eq_mul]

theorem eval_eq_pol (a : Fin n → Int) {l : List Nat} (hl : l.length = n) :
    eval (comp m a) l = pol m a fun i => ((l.getD i.val 0 : Nat) : ZMod m) := by
  rw [eval_eq_sum, hl]
  unfold pol
  rw [← Fin.sum_univ_eq_sum_range (fun i => ((l.getD i 0 : Nat) : Matrix (Fin n) (Fin n) (ZMod m)) * comp m a ^ i)]
  exact Finset.sum_congr rfl fun i _ => natCast_mul_eq_smul _ _

/-- the coefficients of the characteristic polynomial in the order used by `PowMod` -/
def charList (a : Fin n → Int) : List Nat := (List.ofFn fun i => (a i).toNat).reverse

theorem charList_length (a : Fin n → Int) : (charList a).length = n := by simp [charList]

theorem comp_charList {a : Fin n → Int} (ha : ∀ i, 0 ≤ a i) :
    comp m a ^ (charList a).length = eval (comp m a) (charList a) := by
  rw [eval_eq_pol a (charList_length a), charList_length, comp_rel]
  unfold pol
  refine (Equiv.sum_comp Fin.revPerm (fun c => ((a c : Int) : ZMod m) • comp m a ^ (n - 1 - c.val))).symm.trans ?_
  refine Finset.sum_congr rfl fun i _ => ?_
  rw [Fin.revPerm_apply]
  congr 1
  · have hi : i.val < (List.ofFn fun i => (a i).toNat).reverse.length := by simp
    dsimp only
    rw [charList, List.getD_eq_getElem _ _ hi, List.getElem_reverse, List.getElem_ofFn]
    have hv : (⟨(List.ofFn fun i => (a i).toNat).length - 1 - i.val, by simp; omega⟩ : Fin n) = i.rev :=
      Fin.ext (by simp [Fin.val_rev]; omega)
    rw [hv]
    rw [← Int.cast_natCast, Int.toNat_of_nonneg (ha _)]
  · congr 1
    rw [Fin.val_rev]
    have := i.isLt
    omega

theorem cast_m : ((m : Nat) : Matrix (Fin n) (Fin n) (ZMod m)) = 0 := by
  have := natCast_mul_eq_smul (n := n) (m := m) m 1
  rw [mul_one, ZMod.natCast_self, zero_smul] at this
  exact this

/-- `X^E` as computed by `powX` -/
def powList (m : Nat) (a : Fin n → Int) (E : Nat) : List Nat := (powX m (charList a) E).map (· % m)

theorem comp_pow_eq_pol {a : Fin n → Int} (hn : 0 < n) (ha : ∀ i, 0 ≤ a i) {E : Nat} (hE : E < 2 ^ 160) :
    (powList m a E).length = n ∧ comp m a ^ E = pol m a fun i => (((powList m a E).getD i.val 0 : Nat) : ZMod m) := by
  have hf0 : charList a ≠ [] := by
    intro h
    have := charList_length a
    rw [h] at this
    simp at this
    omega
  obtain ⟨h1, h2⟩ := eval_powX (comp m a) cast_m hf0 (comp_charList ha) hE
  rw [charList_length] at h1
  refine ⟨by simp [powList, h1], ?_⟩
  rw [← h2, eval_eq_pol a h1]
  congr 1
  funext i
  have hi : i.val < (powX m (charList a) E).length := by rw [h1]; exact i.isLt
  rw [powList, List.getD_eq_getElem _ _ hi, List.getD_eq_getElem _ _ (by simpa using hi), List.getElem_map,
    ZMod.natCast_mod]

/-- the list for `1` -/
def oneList (n : Nat) : List Nat := (List.range n).map fun i => if i = 0 then 1 else 0

theorem comp_pow_eq_one_iff {a : Fin n → Int} (hm : 1 < m) (hn : 0 < n) (ha : ∀ i, 0 ≤ a i) {E : Nat}
    (hE : E < 2 ^ 160) : comp m a ^ E = 1 ↔ powList m a E = oneList n := by
  obtain ⟨h1, h2⟩ := comp_pow_eq_pol (m := m) hn ha hE
  rw [h2, ← pol_one a hn, (pol_injective a).eq_iff]
  have hlt : ∀ i, i < n → (powList m a E).getD i 0 < m := by
    intro i hi
    have hi' : i < (powList m a E).length := by rw [h1]; exact hi
    rw [List.getD_eq_getElem _ _ hi']
    have : ∀ x ∈ powList m a E, x < m := by
      intro x hx
      obtain ⟨y, -, rfl⟩ := List.mem_map.1 hx
      exact Nat.mod_lt _ (by omega)
    exact this _ (List.getElem_mem _)
  constructor
  · intro h
    refine List.ext_getElem (by simp [h1, oneList]) fun i hi1 hi2 => ?_
    have hi : i < n := by rw [← h1]; exact hi1
    have h3 := congrFun h ⟨i, hi⟩
    have h4 := hlt i hi
    dsimp only at h3
    rw [List.getD_eq_getElem _ _ hi1] at h3 h4
    simp only [oneList, List.getElem_map, List.getElem_range]
    by_cases h0 : i = 0
    · subst h0
      rw [if_pos rfl]
      rw [Pi.single_eq_same, ← Nat.cast_one, ZMod.natCast_eq_natCast_iff', Nat.mod_eq_of_lt h4, Nat.mod_eq_of_lt hm] at h3
      exact h3
    · rw [if_neg h0]
      rw [Pi.single_eq_of_ne (fun hc => h0 (by simpa using congrArg Fin.val hc)), ← Nat.cast_zero,
        ZMod.natCast_eq_natCast_iff', Nat.mod_eq_of_lt h4, Nat.zero_mod] at h3
      exact h3
  · intro h
    funext i
    rw [h, List.getD_eq_getElem _ _ (by simp [oneList])]
    simp only [oneList, List.getElem_map, List.getElem_range]
    by_cases h0 : i = ⟨0, hn⟩
    · subst h0; simp
    · rw [Pi.single_eq_of_ne h0, if_neg (fun hc => h0 (Fin.ext hc)), Nat.cast_zero]

/-! ### primitive elements -/

theorem orderOf_of_checks {M : Type*} [Monoid M] (x : M) (l : List (Nat × Nat)) (hl : ∀ q ∈ l, q.1.Prime)
    (hpos : 0 < prodPow l) (h1 : x ^ prodPow l = 1) (h2 : ∀ q ∈ l, x ^ (prodPow l / q.1) ≠ 1) :
    orderOf x = prodPow l := by
  refine orderOf_eq_of_pow_and_pow_div_prime hpos h1 fun p hp hd => ?_
  obtain ⟨q, hq, rfl⟩ := List.mem_map.1 (mem_of_prime_dvd hl hp hd)
  exact h2 q hq

/-- If a multiple of the companion matrix has the largest possible order, every non-zero polynomial in the
companion matrix is a power of that multiple. -/
theorem pol_eq_pow [Fact m.Prime] {a : Fin n → Int} (hn : 0 < n) (ha : ∀ i, 0 ≤ a i) (hN : m ^ n - 1 < 2 ^ 160)
    {c : ZMod m} (hord : orderOf (c • comp m a) = m ^ n - 1) (l : Fin n → ZMod m) (hl : l ≠ 0) :
    ∃ j, pol m a l = (c • comp m a) ^ j := by
  classical
  have hm2 : 2 ≤ m := (Fact.out : m.Prime).two_le
  have hNpos : 0 < m ^ n - 1 := by
    have : 2 ^ 1 ≤ m ^ n := (Nat.pow_le_pow_left hm2 1).trans (Nat.pow_le_pow_right (by omega) hn)
    omega
  -- coefficient vectors of the powers
  have hpow : ∀ j, j < m ^ n - 1 → ∃ v : Fin n → ZMod m, (c • comp m a) ^ j = pol m a v := by
    intro j hj
    obtain ⟨-, h2⟩ := comp_pow_eq_pol (m := m) hn ha (E := j) (by omega)
    exact ⟨c ^ j • fun i => (((powList m a j).getD i.val 0 : Nat) : ZMod m), by rw [pol_smul, ← h2, smul_pow]⟩
  choose v hv using hpow
  have hinj : Function.Injective (fun j : Fin (m ^ n - 1) => v j.val j.isLt) := by
    intro i j hij
    have h3 : (c • comp m a) ^ i.val = (c • comp m a) ^ j.val := by
      rw [hv i.val i.isLt, hv j.val j.isLt]; exact congrArg (pol m a) hij
    have := pow_injOn_Iio_orderOf (x := c • comp m a) (by rw [Set.mem_Iio, hord]; exact i.isLt)
      (by rw [Set.mem_Iio, hord]; exact j.isLt) h3
    exact Fin.ext this
  have hunit : IsUnit (c • comp m a) := by
    refine IsUnit.of_mul_eq_one ((c • comp m a) ^ (m ^ n - 1 - 1)) ?_
    rw [← pow_succ', Nat.sub_add_cancel (by omega), ← hord, pow_orderOf_eq_one]
  have hnt : Nontrivial (Matrix (Fin n) (Fin n) (ZMod m)) := by
    have : Nonempty (Fin n) := ⟨⟨0, hn⟩⟩
    infer_instance
  have hne : ∀ j : Fin (m ^ n - 1), v j.val j.isLt ≠ 0 := by
    intro j h0
    have h4 := hv j.val j.isLt
    rw [h0, pol_zero] at h4
    exact not_isUnit_zero (h4 ▸ hunit.pow j.val)
  have hcard : Fintype.card {w : Fin n → ZMod m // w ≠ 0} = m ^ n - 1 := by
    rw [Fintype.card_subtype_compl, Fintype.card_subtype_eq, Fintype.card_fun, ZMod.card, Fintype.card_fin]
  have hbij : Function.Bijective (fun j : Fin (m ^ n - 1) => (⟨v j.val j.isLt, hne j⟩ : {w : Fin n → ZMod m // w ≠ 0})) := by
    rw [Fintype.bijective_iff_injective_and_card]
    refine ⟨fun i j hij => hinj (congrArg Subtype.val hij), ?_⟩
    rw [hcard, Fintype.card_fin]
  obtain ⟨j, hj⟩ := hbij.2 ⟨l, hl⟩
  refine ⟨j.val, ?_⟩
  rw [hv j.val j.isLt]
  exact congrArg (pol m a) (congrArg Subtype.val hj).symm

theorem pol_isUnit [Fact m.Prime] {a : Fin n → Int} (hn : 0 < n) (ha : ∀ i, 0 ≤ a i) (hN : m ^ n - 1 < 2 ^ 160)
    {c : ZMod m} (hord : orderOf (c • comp m a) = m ^ n - 1) (l : Fin n → ZMod m) (hl : l ≠ 0) :
    IsUnit (pol m a l) := by
  have hm2 : 2 ≤ m := (Fact.out : m.Prime).two_le
  have hNpos : 0 < m ^ n - 1 := by
    have : 2 ^ 1 ≤ m ^ n := (Nat.pow_le_pow_left hm2 1).trans (Nat.pow_le_pow_right (by omega) hn)
    omega
  have hunit : IsUnit (c • comp m a) := by
    refine IsUnit.of_mul_eq_one ((c • comp m a) ^ (m ^ n - 1 - 1)) ?_
    rw [← pow_succ', Nat.sub_add_cancel (by omega), ← hord, pow_orderOf_eq_one]
  obtain ⟨j, hj⟩ := pol_eq_pow hn ha hN hord l hl
  rw [hj]; exact hunit.pow j

/-- Every non-zero vector returns exactly after the multiples of the order of the companion matrix. -/
theorem pow_mulVec_eq_iff [Fact m.Prime] {a : Fin n → Int} (hn : 0 < n) (ha : ∀ i, 0 ≤ a i)
    (hN : m ^ n - 1 < 2 ^ 160) {c : ZMod m} (hord : orderOf (c • comp m a) = m ^ n - 1)
    {v : Fin n → ZMod m} (hv : v ≠ 0) {t : Nat} (ht : t < 2 ^ 160) :
    comp m a ^ t *ᵥ v = v ↔ comp m a ^ t = 1 := by
  refine ⟨fun h => ?_, fun h => by rw [h, one_mulVec]⟩
  obtain ⟨-, h2⟩ := comp_pow_eq_pol (m := m) hn ha (E := t) ht
  by_contra hne
  have h3 : comp m a ^ t - 1 = pol m a ((fun i => (((powList m a t).getD i.val 0 : Nat) : ZMod m)) -
      Pi.single ⟨0, hn⟩ 1) := by rw [pol_sub, ← h2, pol_one]
  have h4 : ((fun i : Fin n => (((powList m a t).getD i.val 0 : Nat) : ZMod m)) - Pi.single ⟨0, hn⟩ 1) ≠ 0 := by
    intro h0
    rw [h0, pol_zero] at h3
    exact hne (sub_eq_zero.1 h3)
  obtain ⟨u, hu⟩ := pol_isUnit hn ha hN hord _ h4
  have h5 : (comp m a ^ t - 1) *ᵥ v = 0 := by rw [sub_mulVec, h, one_mulVec, sub_self]
  rw [h3, ← hu] at h5
  apply hv
  have : (↑u⁻¹ : Matrix (Fin n) (Fin n) (ZMod m)) *ᵥ ((u : Matrix (Fin n) (Fin n) (ZMod m)) *ᵥ v) = v := by
    rw [mulVec_mulVec, Units.inv_mul, one_mulVec]
  rw [← this, h5, mulVec_zero]

end Trng.MRG
