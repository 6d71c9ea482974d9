import Verif.Model.LinAlg
import Mathlib.Algebra.BigOperators.Group.Finset.Basic
import Mathlib.Algebra.BigOperators.Fin
import Mathlib.LinearAlgebra.Matrix.Defs
import Mathlib.Data.Matrix.Mul
import Mathlib.Algebra.Ring.Equiv
import Mathlib.Data.ZMod.Defs
import Mathlib.Tactic.Ring

/-! Lemmas on the model of linear_algebra.hpp. -/
namespace Trng.LinAlg

variable {T : Type} {n : Nat}

theorem flat_inj {i j i' j' : Fin n} (h : j.val + i.val * n = j'.val + i'.val * n) : i = i' ∧ j = j' := by
  have hj := j.isLt
  have hj' := j'.isLt
  have e1 : (j.val + i.val * n) % n = j.val := by rw [Nat.add_mul_mod_self_right, Nat.mod_eq_of_lt hj]
  have e2 : (j'.val + i'.val * n) % n = j'.val := by rw [Nat.add_mul_mod_self_right, Nat.mod_eq_of_lt hj']
  have e3 : (j.val + i.val * n) / n = i.val := by
    rw [Nat.add_mul_div_right _ _ (by omega), Nat.div_eq_of_lt hj, zero_add]
  have e4 : (j'.val + i'.val * n) / n = i'.val := by
    rw [Nat.add_mul_div_right _ _ (by omega), Nat.div_eq_of_lt hj', zero_add]
  exact ⟨Fin.ext (by rw [← e3, ← e4, h]), Fin.ext (by rw [← e1, ← e2, h])⟩

namespace Mat

theorem ext_get {a b : Mat T n} (h : ∀ i j, a.get i j = b.get i j) : a = b := by
  cases a with | mk a => cases b with | mk b =>
  congr 1
  funext p
  have hn := pos_of_flat p.isLt
  have := h ⟨p.val / n, (Nat.div_lt_iff_lt_mul hn).2 p.isLt⟩ ⟨p.val % n, Nat.mod_lt _ hn⟩
  simp only [get] at this
  have e : (⟨p.val % n + p.val / n * n, flat_lt ⟨p.val / n, (Nat.div_lt_iff_lt_mul hn).2 p.isLt⟩
      ⟨p.val % n, Nat.mod_lt _ hn⟩⟩ : Fin (n * n)) = p := Fin.ext (Nat.mod_add_div' p.val n)
  rw [e] at this
  exact this

theorem get_set (m : Mat T n) (i j i' j' : Fin n) (v : T) :
    (m.set i j v).get i' j' = if i' = i ∧ j' = j then v else m.get i' j' := by
  simp only [get, set, Function.update_apply]
  by_cases h : i' = i ∧ j' = j
  · rw [if_pos h, if_pos (by rw [h.1, h.2])]
  · rw [if_neg h, if_neg (fun hc => h (flat_inj (Fin.mk.inj_iff.1 hc)))]

theorem get_ofFn (f : Fin n → Fin n → T) (i j : Fin n) : (ofFn f).get i j = f i j := by
  have hn : 0 < n := by have := i.isLt; omega
  simp only [get, ofFn]
  congr 1
  · exact Fin.ext (by show (j.val + i.val * n) / n = i.val
                      rw [Nat.add_mul_div_right _ _ hn, Nat.div_eq_of_lt j.isLt, zero_add])
  · exact Fin.ext (by show (j.val + i.val * n) % n = j.val
                      rw [Nat.add_mul_mod_self_right, Nat.mod_eq_of_lt j.isLt])

theorem get_zero [Zero T] (i j : Fin n) : (zero : Mat T n).get i j = 0 := rfl

end Mat

/-- The matrix as a mathematical matrix. -/
def toMatrix (a : Mat T n) : Matrix (Fin n) (Fin n) T := Matrix.of fun i j => a.get i j

theorem toMatrix_apply (a : Mat T n) (i j : Fin n) : toMatrix a i j = a.get i j := rfl

theorem toMatrix_inj {a b : Mat T n} (h : toMatrix a = toMatrix b) : a = b :=
  Mat.ext_get fun i j => by rw [← toMatrix_apply, ← toMatrix_apply, h]

theorem foldl_sum {α : Type} [AddCommMonoid T] (l : List α) (f : α → T) (s : T) :
    l.foldl (fun s k => s + f k) s = s + (l.map f).sum := by
  induction l generalizing s with
  | nil => simp
  | cons a l ih => rw [List.foldl_cons, ih, List.map_cons, List.sum_cons, add_assoc]

theorem mvmul_apply [NonUnitalNonAssocSemiring T] (a : Mat T n) (b : Vec T n) (i : Fin n) :
    mvmul a b i = ∑ k, a.get i k * b k := by
  rw [mvmul, foldl_sum (f := fun k => a.get i k * b k), zero_add, ← Fin.sum_univ_def]

/-- Independent updates of the elements at the positions of a list without repetition. -/
theorem foldl_set_get (l : List (Fin n × Fin n)) (hl : l.Nodup) (f : Fin n → Fin n → T → T) (m : Mat T n)
    (i j : Fin n) :
    (l.foldl (fun m p => m.set p.1 p.2 (f p.1 p.2 (m.get p.1 p.2))) m).get i j =
      if (i, j) ∈ l then f i j (m.get i j) else m.get i j := by
  induction l generalizing m with
  | nil => simp
  | cons p l ih =>
    rw [List.nodup_cons] at hl
    rw [List.foldl_cons, ih hl.2]
    by_cases hp : (i, j) = p
    · subst hp
      rw [if_neg hl.1, if_pos List.mem_cons_self, Mat.get_set, if_pos ⟨rfl, rfl⟩]
    · rw [Mat.get_set, if_neg (show ¬ (i = p.1 ∧ j = p.2) from fun h => hp (Prod.ext h.1 h.2))]
      simp only [List.mem_cons, hp, false_or]

theorem nested_foldl (l1 : List (Fin n)) (l2 : List (Fin n)) (F : Mat T n → Fin n → Fin n → Mat T n) (m : Mat T n) :
    l1.foldl (fun m i => l2.foldl (fun m j => F m i j) m) m =
      (l1 ×ˢ l2).foldl (fun m p => F m p.1 p.2) m := by
  induction l1 generalizing m with
  | nil => rfl
  | cons i l1 ih =>
    rw [List.foldl_cons, ih, List.product_cons, List.foldl_append, List.foldl_map]

theorem block_nodup (n j0 : Nat) : (block n j0).Nodup := (List.nodup_finRange n).filter _

theorem mem_block {j0 : Nat} {j : Fin n} : j ∈ block n j0 ↔ j0 ≤ j.val ∧ j.val < j0 + 32 := by
  have := j.isLt
  simp only [block, List.mem_filter, List.mem_finRange, true_and, decide_eq_true_iff]
  omega

theorem double_set_get (j0 : Nat) (f : Fin n → Fin n → T → T) (m : Mat T n) (i j : Fin n) :
    ((List.finRange n).foldl (fun m i => (block n j0).foldl (fun m j => m.set i j (f i j (m.get i j))) m) m).get i j =
      if j ∈ block n j0 then f i j (m.get i j) else m.get i j := by
  rw [nested_foldl (F := fun m i j => m.set i j (f i j (m.get i j))),
    foldl_set_get _ ((List.nodup_finRange n).product (block_nodup n j0))]
  have e : (i, j) ∈ List.finRange n ×ˢ block n j0 ↔ j ∈ block n j0 := by
    exact List.mem_product.trans ⟨fun h => h.2, fun h => ⟨List.mem_finRange i, h⟩⟩
  simp only [e]

section
variable [NonUnitalNonAssocSemiring T]

/-- One block of columns. -/
theorem kloop_get (a b : Mat T n) (j0 : Nat) (l : List Nat) (m : Mat T n) (i j : Fin n) :
    (l.foldl (fun res k0 => (List.finRange n).foldl (fun res i => (block n j0).foldl (fun res j =>
        let sum := (block n k0).foldl (fun sum k => sum + a.get i k * b.get k j) 0
        res.set i j (res.get i j + sum)) res) res) m).get i j =
      if j ∈ block n j0 then
        m.get i j + (l.map fun k0 => ((block n k0).map fun k => a.get i k * b.get k j).sum).sum
      else m.get i j := by
  induction l generalizing m with
  | nil => simp
  | cons k0 l ih =>
    rw [List.foldl_cons, ih]
    have := double_set_get j0 (fun i j x => x + (block n k0).foldl (fun sum k => sum + a.get i k * b.get k j) 0) m i j
    simp only at this ⊢
    rw [this]
    by_cases hj : j ∈ block n j0
    · simp only [if_pos hj]
      rw [foldl_sum (f := fun k => a.get i k * b.get k j), zero_add, List.map_cons, List.sum_cons, add_assoc]
    · simp only [if_neg hj]

theorem mem_starts {k0 : Nat} : k0 ∈ starts n ↔ ∃ q, q * 32 < n ∧ k0 = 32 * q := by
  simp only [starts, List.mem_map, List.mem_range]
  constructor
  · rintro ⟨q, h, rfl⟩; exact ⟨q, by omega, rfl⟩
  · rintro ⟨q, h, rfl⟩; exact ⟨q, by omega, rfl⟩

theorem mem_block_iff {q : Nat} {j : Fin n} : j ∈ block n (32 * q) ↔ j.val / 32 = q := by
  rw [mem_block]; omega

/-- The blocks of inner indices together are all indices. -/
theorem blocks_sum (f : Fin n → T) :
    ((starts n).map fun k0 => ((block n k0).map f).sum).sum = ∑ k, f k := by
  rw [starts, List.map_map]
  have h1 : ∀ q : Nat, ((block n (32 * q)).map f).sum = ∑ k with k.val / 32 = q, f k := by
    intro q
    have e : (block n (32 * q)).toFinset = Finset.univ.filter (fun k : Fin n => k.val / 32 = q) := by
      ext k
      rw [List.mem_toFinset, mem_block_iff, Finset.mem_filter]
      simp
    rw [← e, List.sum_toFinset f (block_nodup _ _)]
  have h2 : ((fun k0 => ((block n k0).map f).sum) ∘ fun x => 32 * x) = fun q => ∑ k with k.val / 32 = q, f k :=
    funext h1
  rw [h2, ← List.sum_toFinset _ List.nodup_range, List.toFinset_range]
  refine Finset.sum_fiberwise_of_maps_to (g := fun k : Fin n => k.val / 32) ?_ f
  intro k _
  have := k.isLt
  rw [Finset.mem_range]
  omega

theorem mmul_get (a b : Mat T n) (i j : Fin n) : (mmul a b).get i j = ∑ k, a.get i k * b.get k j := by
  have key : ∀ (l : List Nat) (m : Mat T n), (l.foldl (fun res j0 =>
      let res := (List.finRange n).foldl (fun res i =>
        (block n j0).foldl (fun res j => res.set i j 0) res) res
      (starts n).foldl (fun res k0 =>
        (List.finRange n).foldl (fun res i =>
          (block n j0).foldl (fun res j =>
            let sum := (block n k0).foldl (fun sum k => sum + a.get i k * b.get k j) 0
            res.set i j (res.get i j + sum)) res) res) res) m).get i j =
      if ∃ j0 ∈ l, j ∈ block n j0 then ∑ k, a.get i k * b.get k j else m.get i j := by
    intro l
    induction l with
    | nil => intro m; simp
    | cons j0 l ih =>
      intro m
      rw [List.foldl_cons, ih]
      by_cases hl : ∃ j0 ∈ l, j ∈ block n j0
      · rw [if_pos hl, if_pos (by obtain ⟨x, h1, h2⟩ := hl; exact ⟨x, List.mem_cons_of_mem _ h1, h2⟩)]
      · rw [if_neg hl]
        simp only
        have e := kloop_get a b j0 (starts n) ((List.finRange n).foldl (fun res i =>
          (block n j0).foldl (fun res j => res.set i j 0) res) m) i j
        simp only at e
        rw [e]
        have e2 := double_set_get j0 (fun _ _ _ => (0 : T)) m i j
        rw [e2]
        by_cases hj : j ∈ block n j0
        · rw [if_pos hj, if_pos hj, zero_add, blocks_sum, if_pos ⟨j0, List.mem_cons_self, hj⟩]
        · rw [if_neg hj, if_neg hj, if_neg]
          rintro ⟨x, h1, h2⟩
          rcases List.mem_cons.1 h1 with h | h
          · exact hj (h ▸ h2)
          · exact hl ⟨x, h, h2⟩
  rw [mmul, key, if_pos]
  exact ⟨32 * (j.val / 32), mem_starts.2 ⟨j.val / 32, by have := j.isLt; omega, rfl⟩, mem_block_iff.2 rfl⟩

end

theorem toMatrix_mmul [NonUnitalNonAssocSemiring T] (a b : Mat T n) : toMatrix (mmul a b) = toMatrix a * toMatrix b := by
  ext i j
  rw [toMatrix_apply, mmul_get, Matrix.mul_apply]
  rfl

theorem toMatrix_mvmul [NonUnitalNonAssocSemiring T] (a : Mat T n) (b : Vec T n) : mvmul a b = (toMatrix a).mulVec b := by
  funext i
  rw [mvmul_apply]
  rfl

theorem toMatrix_powerLoop [Semiring T] (fuel : Nat) (m : BitVec 64) (res powers : Mat T n) (h : m.toNat < 2 ^ fuel) :
    toMatrix (powerLoop fuel m res powers) = toMatrix res * toMatrix powers ^ m.toNat := by
  induction fuel generalizing m res powers with
  | zero =>
    have : m.toNat = 0 := by simpa using h
    rw [powerLoop, this, pow_zero, mul_one]
  | succ fuel ih =>
    rw [powerLoop]
    by_cases hm : m > 0
    · rw [if_pos hm]
      simp only
      have hs : (m >>> 1).toNat = m.toNat / 2 := by rw [BitVec.toNat_ushiftRight, Nat.shiftRight_one]
      have hb : (m &&& 1 = 1) ↔ m.toNat % 2 = 1 := by
        rw [← BitVec.toNat_inj, BitVec.toNat_and, show (1 : BitVec 64).toNat = 1 from rfl, Nat.and_one_is_mod]
      have hr : toMatrix (if m &&& 1 = 1 then mmul res powers else res) = toMatrix res * toMatrix powers ^ (m.toNat % 2) := by
        by_cases h1 : m &&& 1 = 1
        · rw [if_pos h1, hb.1 h1, pow_one, toMatrix_mmul]
        · have : m.toNat % 2 = 0 := by have := mt hb.2 h1; omega
          rw [if_neg h1, this, pow_zero, mul_one]
      have hd : m.toNat = m.toNat % 2 + 2 * (m.toNat / 2) := by omega
      by_cases h0 : m >>> 1 = 0
      · rw [if_pos h0, hr]
        have : m.toNat / 2 = 0 := by rw [← hs, h0]; rfl
        rw [show m.toNat % 2 = m.toNat by omega]
      · rw [if_neg h0, ih _ _ _ (by rw [hs]; rw [pow_succ] at h; omega), hr, toMatrix_mmul, hs]
        conv_rhs => rw [hd]
        rw [pow_add, pow_mul, pow_two, mul_assoc]
    · have : m.toNat = 0 := by
        rw [gt_iff_lt, BitVec.lt_def] at hm
        simpa using hm
      rw [if_neg hm, this, pow_zero, mul_one]

theorem toMatrix_power [Semiring T] (a : Mat T n) (m : BitVec 64) : toMatrix (power a m) = toMatrix a ^ m.toNat := by
  rw [power, toMatrix_powerLoop _ _ _ _ m.isLt]
  have : toMatrix (Mat.ofFn fun i j => if i = j then (1 : T) else 0 : Mat T n) = 1 := by
    ext i j
    rw [toMatrix_apply, Mat.get_ofFn, Matrix.one_apply]
  rw [this, one_mul]

theorem Mat.eq_iff [DecidableEq T] (a b : Mat T n) : a.eq b = true ↔ a = b := by
  rw [Mat.eq, List.all_eq_true]
  constructor
  · intro h
    cases a; cases b
    congr 1
    funext p
    exact of_decide_eq_true (h p (List.mem_finRange p))
  · rintro rfl p _
    simp

namespace GF2

instance : Neg GF2 := ⟨id⟩

theorem ext {a b : GF2} (h : a.value = b.value) : a = b := by cases a; cases b; simp_all

/-- The two-element field as a commutative ring. -/
instance : CommRing GF2 where
  add_assoc := by rintro ⟨_ | _⟩ ⟨_ | _⟩ ⟨_ | _⟩ <;> rfl
  zero_add := by rintro ⟨_ | _⟩ <;> rfl
  add_zero := by rintro ⟨_ | _⟩ <;> rfl
  add_comm := by rintro ⟨_ | _⟩ ⟨_ | _⟩ <;> rfl
  left_distrib := by rintro ⟨_ | _⟩ ⟨_ | _⟩ ⟨_ | _⟩ <;> rfl
  right_distrib := by rintro ⟨_ | _⟩ ⟨_ | _⟩ ⟨_ | _⟩ <;> rfl
  zero_mul := by rintro ⟨_ | _⟩ <;> rfl
  mul_zero := by rintro ⟨_ | _⟩ <;> rfl
  mul_assoc := by rintro ⟨_ | _⟩ ⟨_ | _⟩ ⟨_ | _⟩ <;> rfl
  one_mul := by rintro ⟨_ | _⟩ <;> rfl
  mul_one := by rintro ⟨_ | _⟩ <;> rfl
  mul_comm := by rintro ⟨_ | _⟩ ⟨_ | _⟩ <;> rfl
  neg_add_cancel := by rintro ⟨_ | _⟩ <;> rfl
  nsmul := nsmulRec
  zsmul := zsmulRec

theorem add_value (a b : GF2) : (a + b).value = (a.value ^^ b.value) := rfl
theorem mul_value (a b : GF2) : (a * b).value = (a.value && b.value) := rfl
theorem zero_value : (0 : GF2).value = false := rfl
theorem one_value : (1 : GF2).value = true := rfl

/-- `GF2` is the field with two elements. -/
def equivZMod : GF2 ≃+* ZMod 2 where
  toFun a := if a.value then 1 else 0
  invFun z := ⟨z = 1⟩
  left_inv := by rintro ⟨_ | _⟩ <;> rfl
  right_inv := by intro z; revert z; decide
  map_mul' := by rintro ⟨_ | _⟩ ⟨_ | _⟩ <;> rfl
  map_add' := by rintro ⟨_ | _⟩ ⟨_ | _⟩ <;> rfl

theorem getLsbD_act {w : Nat} (a : GF2) (b : BitVec w) (i : Nat) : (a.act b).getLsbD i = (a.value && b.getLsbD i) := by
  rw [act]
  cases a.value <;> simp

end GF2
end Trng.LinAlg
