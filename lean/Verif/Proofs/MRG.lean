import Verif.Model.MRG
import Verif.Proofs.Gauss
import Verif.Proofs.Engine
import Mathlib.LinearAlgebra.Matrix.Defs
import Mathlib.Data.Matrix.Mul
import Mathlib.Algebra.Order.BigOperators.Group.List

/-! Helper lemmas for the mrg and yarn engines: one step is the companion matrix over ℤ/m. -/
namespace Trng.MRG
open IntMath Matrix

variable {n m : Nat}

/-- All stored values are residues. -/
structure Valid (m : Nat) (e : MRG n) : Prop where
  a : ∀ i, InR m (e.a i)
  r : ∀ i, InR m (e.r i)

theorem sum_ofNat_toNat : ∀ l : List Nat, l.sum < 2 ^ 64 → (l.map (BitVec.ofNat 64)).sum.toNat = l.sum
  | [], _ => by simp
  | x :: l, h => by
    rw [List.sum_cons] at h
    rw [List.map_cons, List.sum_cons, BitVec.toNat_add, sum_ofNat_toNat l (by omega), BitVec.toNat_ofNat,
      List.sum_cons]
    omega

/-- the products as natural numbers -/
def natTerms (e : MRG n) : List Nat := (List.finRange n).map fun i => (e.a i).toNat * (e.r i).toNat

theorem terms_eq {e : MRG n} (h : Valid m e) : e.terms = (natTerms e).map (BitVec.ofNat 64) := by
  unfold terms natTerms
  rw [List.map_map]
  refine List.map_congr_left fun i _ => ?_
  obtain ⟨A, hA⟩ := Int.eq_ofNat_of_zero_le (h.a i).1
  obtain ⟨R, hR⟩ := Int.eq_ofNat_of_zero_le (h.r i).1
  simp only [Function.comp, hA, hR, BitVec.ofInt_natCast, Int.toNat_natCast, BitVec.ofNat_mul]

theorem natTerms_le {e : MRG n} (h : Valid m e) : ∀ x ∈ natTerms e, x ≤ (m - 1) * (m - 1) := by
  intro x hx
  obtain ⟨i, -, rfl⟩ := List.mem_map.1 hx
  obtain ⟨a0, a1⟩ := h.a i
  obtain ⟨r0, r1⟩ := h.r i
  exact Nat.mul_le_mul (by omega) (by omega)

theorem natTerms_length (e : MRG n) : (natTerms e).length = n := by simp [natTerms]

theorem sum_le_of_le {l : List Nat} {B : Nat} (h : ∀ x ∈ l, x ≤ B) : l.sum ≤ l.length * B := by
  have := List.sum_le_card_nsmul l B h
  simpa using this

theorem natTerms_sum {e : MRG n} (h : Valid m e) : ((natTerms e).sum : Int) = ∑ i, e.a i * e.r i := by
  unfold natTerms
  rw [← List.ofFn_eq_map, List.sum_ofFn]
  push_cast
  refine Finset.sum_congr rfl fun i _ => ?_
  rw [Int.toNat_of_nonneg (h.a i).1, Int.toNat_of_nonneg (h.r i).1]

theorem stepSum_mod (hm : IsEngineModulus m) (hn : n ≤ 5) {e : MRG n} (h : Valid m e) :
    (e.stepSum m).toNat % m = (natTerms e).sum % m ∧
    (n ≤ 3 → (e.stepSum m).toNat ≤ n * ((m - 1) * (m - 1))) := by
  obtain ⟨m1, m2⟩ := engineModulus_bounds hm
  have hB : (m - 1) * (m - 1) < 2 ^ 62 := by
    calc (m - 1) * (m - 1) < 2 ^ 31 * 2 ^ 31 := Nat.mul_lt_mul'' (by omega) (by omega)
      _ = 2 ^ 62 := by norm_num
  unfold stepSum
  by_cases h5 : n = 5
  · rw [if_pos h5]
    refine ⟨?_, fun h3 => by omega⟩
    dsimp only
    have hlen := natTerms_length e
    have hle := natTerms_le h
    have s4 : ((natTerms e).take 4).sum ≤ 4 * ((m - 1) * (m - 1)) := by
      refine (sum_le_of_le (fun x hx => hle x (List.mem_of_mem_take hx))).trans ?_
      rw [List.length_take]
      exact Nat.mul_le_mul_right _ (min_le_left _ _)
    have s1 : ((natTerms e).drop 4).sum ≤ 1 * ((m - 1) * (m - 1)) := by
      refine (sum_le_of_le (fun x hx => hle x (List.mem_of_mem_drop hx))).trans ?_
      rw [List.length_drop]
      exact Nat.mul_le_mul_right _ (by omega)
    have hsum : (natTerms e).sum = ((natTerms e).take 4).sum + ((natTerms e).drop 4).sum := by
      rw [← List.sum_append, List.take_append_drop]
    rw [terms_eq h, ← List.map_take, ← List.map_drop]
    have t4 := sum_ofNat_toNat ((natTerms e).take 4) (by omega)
    have t1 := sum_ofNat_toNat ((natTerms e).drop 4) (by omega)
    rw [hsum]
    generalize ((natTerms e).take 4).sum = S4 at *
    generalize ((natTerms e).drop 4).sum = S1 at *
    generalize (((natTerms e).take 4).map (BitVec.ofNat 64)).sum = X4 at *
    generalize (((natTerms e).drop 4).map (BitVec.ofNat 64)).sum = X1 at *
    have hmm1 : 2 * m * m < 2 ^ 63 := by
      calc 2 * m * m = 2 * (m * m) := by ring
        _ < 2 * (2 ^ 31 * 2 ^ 31) := by
          apply Nat.mul_lt_mul_of_pos_left _ (by omega)
          exact Nat.mul_lt_mul'' m2 m2
        _ = 2 ^ 63 := by norm_num
    have hmm2 : 2 * ((m - 1) * (m - 1)) ≤ 2 * m * m := by
      rw [Nat.mul_assoc]; exact Nat.mul_le_mul_left _ (Nat.mul_le_mul (by omega) (by omega))
    have hdvd : m ∣ 2 * m * m := ⟨2 * m, by ring⟩
    generalize 2 * m * m = M at *
    generalize (m - 1) * (m - 1) = B at *
    have hM : (BitVec.ofNat 64 M).toNat = M := by rw [BitVec.toNat_ofNat]; omega
    split
    · rename_i hge
      rw [ge_iff_le, BitVec.le_def, hM, t4] at hge
      rw [BitVec.toNat_add, BitVec.toNat_sub_of_le (by rw [BitVec.le_def, hM, t4]; exact hge), hM, t4, t1,
        Nat.mod_eq_of_lt (show S4 - M + S1 < 2 ^ 64 by omega)]
      obtain ⟨c, rfl⟩ := hdvd
      rw [show S4 - m * c + S1 = S4 + S1 - m * c by omega]
      exact Nat.sub_mul_mod (by omega)
    · rename_i hlt
      rw [ge_iff_le, BitVec.le_def, hM, t4] at hlt
      rw [BitVec.toNat_add, t4, t1, Nat.mod_eq_of_lt (show S4 + S1 < 2 ^ 64 by omega)]
  · rw [if_neg h5, terms_eq h]
    have hle := sum_le_of_le (natTerms_le h)
    rw [natTerms_length] at hle
    have : n * ((m - 1) * (m - 1)) ≤ 4 * ((m - 1) * (m - 1)) := Nat.mul_le_mul_right _ (by omega)
    rw [sum_ofNat_toNat _ (by omega)]
    exact ⟨rfl, fun _ => hle⟩

/-- One call computes the linear combination modulo `m`. -/
theorem modulo_stepSum (hm : IsEngineModulus m) (hn1 : 1 ≤ n) (hn : n ≤ 5) {e : MRG n} (h : Valid m e) :
    modulo m n (e.stepSum m) = (∑ i, e.a i * e.r i) % m := by
  obtain ⟨h1, h2⟩ := stepSum_mod hm hn h
  rw [modulo_eq hm hn1 hn _ (by by_cases h4 : 4 ≤ n
                                · exact Or.inl h4
                                · exact Or.inr (h2 (by omega))), h1, ← natTerms_sum h]
  norm_cast

theorem step_r (hm : IsEngineModulus m) (hn : n ≤ 5) {e : MRG n} (h : Valid m e) (i : Fin n) :
    (e.step m).r i = if i.val = 0 then (∑ i, e.a i * e.r i) % m else e.r ⟨i.val - 1, by omega⟩ := by
  unfold step
  dsimp only
  split
  · exact modulo_stepSum hm (by have := i.isLt; omega) hn h
  · rfl

theorem step_valid (hm : IsEngineModulus m) (hn : n ≤ 5) {e : MRG n} (h : Valid m e) : Valid m (e.step m) := by
  obtain ⟨m1, m2⟩ := engineModulus_bounds hm
  refine ⟨h.a, fun i => ?_⟩
  rw [step_r hm hn h]
  split
  · exact ⟨Int.emod_nonneg _ (by omega), Int.emod_lt_of_pos _ (by omega)⟩
  · exact h.r _

theorem iterate_valid (hm : IsEngineModulus m) (hn : n ≤ 5) {e : MRG n} (h : Valid m e) (k : Nat) :
    Valid m ((step m)^[k] e) := by
  induction k with
  | zero => exact h
  | succ k ih => rw [Function.iterate_succ_apply']; exact step_valid hm hn ih

theorem iterate_a (e : MRG n) (k : Nat) : ((step m)^[k] e).a = e.a := by
  induction k with
  | zero => rfl
  | succ k ih => rw [Function.iterate_succ_apply']; exact ih

/-! ### the companion matrix -/

/-- residues as elements of `ZMod m` -/
def castV (m : Nat) (r : Fin n → Int) : Fin n → ZMod m := fun i => (r i : ZMod m)

/-- the companion matrix over `ZMod m` -/
def comp (m : Nat) (a : Fin n → Int) : Matrix (Fin n) (Fin n) (ZMod m) :=
  fun i j => (companion a i j : ZMod m)

theorem ext_cast {e e' : MRG n} [Fact m.Prime] (h : Valid m e) (h' : Valid m e') (ha : e.a = e'.a)
    (hr : castV m e.r = castV m e'.r) : e = e' := by
  refine MRG.ext ha (funext fun i => ?_)
  exact (h.r i).inj (h'.r i) (congrFun hr i)

theorem castV_step (hm : IsEngineModulus m) (hn : n ≤ 5) {e : MRG n} (h : Valid m e) :
    castV m (e.step m).r = comp m e.a *ᵥ castV m e.r := by
  funext i
  simp only [castV, comp, mulVec, dotProduct, companion, step_r hm hn h]
  by_cases hi : i.val = 0
  · simp only [if_pos hi]
    rw [ZMod.intCast_mod]
    push_cast; rfl
  · simp only [if_neg hi]
    rw [Finset.sum_eq_single (⟨i.val - 1, by omega⟩ : Fin n)]
    · rw [if_pos (by show i.val - 1 + 1 = i.val; omega), Int.cast_one, one_mul]
    · intro b _ hb
      rw [if_neg (fun hc => hb (Fin.ext (by show b.val = i.val - 1; omega))), Int.cast_zero, zero_mul]
    · intro hc; exact absurd (Finset.mem_univ _) hc

theorem castV_iterate (hm : IsEngineModulus m) (hn : n ≤ 5) {e : MRG n} (h : Valid m e) (k : Nat) :
    castV m ((step m)^[k] e).r = comp m e.a ^ k *ᵥ castV m e.r := by
  induction k with
  | zero => simp
  | succ k ih =>
    rw [Function.iterate_succ_apply', castV_step hm hn (iterate_valid hm hn h k), ih, iterate_a, pow_succ',
      mulVec_mulVec]

/-! ### jump2, jump -/

/-- matrices of residues -/
def InRM (m : Nat) (b : Fin n → Fin n → Int) : Prop := ∀ i j, InR m (b i j)

/-- a matrix over `ZMod m` -/
def castM (m : Nat) (b : Fin n → Fin n → Int) : Matrix (Fin n) (Fin n) (ZMod m) := fun i j => (b i j : ZMod m)

theorem matrixMult_cast (hm0 : 0 < m) (hm : m ≤ 2147483648) {b c : Fin n → Fin n → Int} (hb : InRM m b)
    (hc : InRM m c) : InRM m (matrixMult b c m) ∧ castM m (matrixMult b c m) = castM m b * castM m c := by
  have e := matrixMult_eq (m := m) (by omega) (by omega) b c (fun i j => (hb i j).1) (fun i j => (hc i j).1)
  constructor
  · intro i j
    rw [e]
    exact ⟨Int.emod_nonneg _ (by omega), Int.emod_lt_of_pos _ (by omega)⟩
  · funext i j
    simp only [castM, e, Matrix.mul_apply]
    rw [ZMod.intCast_mod]; push_cast; rfl

theorem sqLoop_spec (hm0 : 0 < m) (hm : m ≤ 2147483648) : ∀ (k : Nat) (b c : Fin n → Fin n → Int), InRM m b →
    InRM m (if k % 2 = 0 then (sqLoop m k b c).1 else (sqLoop m k b c).2) ∧
    castM m (if k % 2 = 0 then (sqLoop m k b c).1 else (sqLoop m k b c).2) = castM m b ^ 2 ^ k
  | 0, b, c, hb => by simp [sqLoop, hb]
  | 1, b, c, hb => by
    simp only [sqLoop, Nat.one_mod, one_ne_zero, if_false, pow_one]
    rw [pow_two]
    exact matrixMult_cast hm0 hm hb hb
  | k + 2, b, c, hb => by
    simp only [sqLoop, Nat.add_mod_right]
    obtain ⟨h1, h2⟩ := matrixMult_cast hm0 hm hb hb
    obtain ⟨h3, h4⟩ := matrixMult_cast hm0 hm h1 h1
    obtain ⟨h5, h6⟩ := sqLoop_spec hm0 hm k _ (matrixMult b b m) h3
    refine ⟨h5, ?_⟩
    rw [h6, h4, h2, ← pow_two, ← pow_two, ← pow_mul, ← pow_mul]
    congr 1
    rw [pow_add]; ring

theorem companion_valid {e : MRG n} (hm : 2 ≤ m) (h : Valid m e) : InRM m (companion e.a) := by
  intro i j
  unfold companion
  split
  · exact h.a j
  · split
    · exact ⟨by omega, by omega⟩
    · exact ⟨by omega, by omega⟩

theorem jump2_eq [Fact m.Prime] (hm : IsEngineModulus m) (hn : n ≤ 5) {e : MRG n} (h : Valid m e)
    (s : BitVec 32) : e.jump2 m s = (step m)^[2 ^ s.toNat] e := by
  obtain ⟨m1, m2⟩ := engineModulus_bounds hm
  obtain ⟨h1, h2⟩ := sqLoop_spec (m := m) (by omega) (by omega) s.toNat (companion e.a) (fun _ _ => 0)
    (companion_valid (by omega) h)
  have hpar : (s &&& 1 = 0) ↔ s.toNat % 2 = 0 := by
    rw [← BitVec.toNat_inj, BitVec.toNat_and]
    simp [Nat.and_one_is_mod]
  have hsel : (if s &&& 1 = 0 then (sqLoop m s.toNat (companion e.a) (fun _ _ => 0)).1
      else (sqLoop m s.toNat (companion e.a) (fun _ _ => 0)).2) =
      (if s.toNat % 2 = 0 then (sqLoop m s.toNat (companion e.a) (fun _ _ => 0)).1
      else (sqLoop m s.toNat (companion e.a) (fun _ _ => 0)).2) := by
    by_cases hp : s.toNat % 2 = 0
    · rw [if_pos hp, if_pos (hpar.2 hp)]
    · rw [if_neg hp, if_neg (fun hc => hp (hpar.1 hc))]
  have hdef : e.jump2 m s = { e with r := matrixVecMult (if s.toNat % 2 = 0 then
      (sqLoop m s.toNat (companion e.a) (fun _ _ => 0)).1
      else (sqLoop m s.toNat (companion e.a) (fun _ _ => 0)).2) e.r m } := by
    unfold jump2
    dsimp only
    rw [hsel]
  rw [hdef]
  generalize (if s.toNat % 2 = 0 then (sqLoop m s.toNat (companion e.a) (fun _ _ => 0)).1
      else (sqLoop m s.toNat (companion e.a) (fun _ _ => 0)).2) = B at h1 h2
  have hv := matrixVecMult_eq (m := m) (by omega) (by omega) B e.r (fun i j => (h1 i j).1) (fun i => (h.r i).1)
  refine ext_cast (m := m) ⟨h.a, fun i => ?_⟩ (iterate_valid hm hn h _) (iterate_a e _).symm ?_
  · dsimp only
    rw [hv]
    exact ⟨Int.emod_nonneg _ (by omega), Int.emod_lt_of_pos _ (by omega)⟩
  · rw [castV_iterate hm hn h]
    have : comp m e.a = castM m (companion e.a) := rfl
    rw [this, ← h2]
    funext i
    simp only [castV, hv, mulVec, dotProduct, castM]
    rw [ZMod.intCast_mod]; push_cast; rfl

theorem jumpLoop_eq [Fact m.Prime] (hm : IsEngineModulus m) (hn : n ≤ 5) : ∀ (fuel i : Nat) (s : BitVec 64)
    (e : MRG n), Valid m e → s.toNat < 2 ^ fuel → i + fuel ≤ 64 →
    jumpLoop m fuel (BitVec.ofNat 32 i) s e = (step m)^[2 ^ i * s.toNat] e
  | 0, i, s, e, h, hs, _ => by
    have : s.toNat = 0 := by omega
    simp [jumpLoop, this]
  | fuel + 1, i, s, e, h, hs, hi => by
    unfold jumpLoop
    by_cases h0 : s > 0
    · rw [if_pos h0]
      have hi' : BitVec.ofNat 32 i + 1 = BitVec.ofNat 32 (i + 1) := by
        rw [BitVec.ofNat_add]; rfl
      have hshr : (s >>> 1).toNat = s.toNat / 2 := by
        rw [BitVec.toNat_ushiftRight, Nat.shiftRight_eq_div_pow, pow_one]
      have hpar : (s % 2 = 1) ↔ s.toNat % 2 = 1 := by
        rw [← BitVec.toNat_inj, BitVec.toNat_umod]; rfl
      have hlt : (s >>> 1).toNat < 2 ^ fuel := by rw [hshr]; rw [pow_succ] at hs; omega
      rw [hi']
      have hiN : (BitVec.ofNat 32 i).toNat = i := by rw [BitVec.toNat_ofNat]; omega
      by_cases hp : s.toNat % 2 = 1
      · rw [if_pos (hpar.2 hp), jump2_eq hm hn h, hiN,
          jumpLoop_eq hm hn fuel (i + 1) _ _ (iterate_valid hm hn h _) hlt (by omega),
          ← Function.iterate_add_apply, hshr]
        congr 1
        rw [pow_succ]
        conv_rhs => rw [← Nat.div_add_mod s.toNat 2, hp]
        ring
      · rw [if_neg (fun hc => hp (hpar.1 hc)), jumpLoop_eq hm hn fuel (i + 1) _ _ h hlt (by omega), hshr]
        congr 1
        rw [pow_succ]
        conv_rhs => rw [← Nat.div_add_mod s.toNat 2, show s.toNat % 2 = 0 by omega]
        ring
    · rw [if_neg h0]
      have : s.toNat = 0 := by
        rw [gt_iff_lt, BitVec.lt_def] at h0; simpa using h0
      simp [this]

theorem jump_eq [Fact m.Prime] (hm : IsEngineModulus m) (hn : n ≤ 5) {e : MRG n} (h : Valid m e)
    (s : BitVec 64) : e.jump m s = (step m)^[s.toNat] e := by
  unfold jump
  split
  · rfl
  · have := jumpLoop_eq hm hn 64 0 s e h s.isLt (by omega)
    rw [pow_zero, one_mul] at this
    exact this

theorem afterCalls_call [NeZero n] (e : MRG n) (k : Nat) :
    Spec.afterCalls (call m) k e = (step m)^[k] e := by
  induction k generalizing e with
  | zero => rfl
  | succ k ih => rw [Spec.afterCalls, ih, Function.iterate_succ_apply]; rfl

theorem afterCalls_callYarn [NeZero n] (g : Nat) (e : MRG n) (k : Nat) :
    Spec.afterCalls (callYarn m g) k e = (step m)^[k] e := by
  induction k generalizing e with
  | zero => rfl
  | succ k ih => rw [Spec.afterCalls, ih, Function.iterate_succ_apply]; rfl

theorem nth_call [NeZero n] (e : MRG n) (k : Nat) :
    Spec.nth (call m) e k = ((step m)^[k + 1] e).r 0 := by
  rw [Spec.nth, afterCalls_call, Function.iterate_succ_apply']; rfl

/-- the output function of the yarn engines -/
def yarnOut (m g : Nat) (x : Int) : Option Int :=
  if x = 0 then some 0 else powerApply m g (BitVec.ofInt 32 x)

theorem nth_callYarn [NeZero n] (g : Nat) (e : MRG n) (k : Nat) :
    Spec.nth (callYarn m g) e k = yarnOut m g (((step m)^[k + 1] e).r 0) := by
  rw [Spec.nth, afterCalls_callYarn, Function.iterate_succ_apply']; rfl

end Trng.MRG
