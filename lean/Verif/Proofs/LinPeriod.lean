import Verif.Proofs.Gf2Field
import Mathlib.SetTheory.Cardinal.Finite
import Mathlib.Algebra.Polynomial.AlgebraMap

/-! Linear maps over GF(2) that permute the non-zero vectors in one cycle. -/
namespace Trng.Gf2
open LinAlg Polynomial

variable {V : Type} [AddCommGroup V] [Module GF2 V] (A : Module.End GF2 V) {f : GF2[X]} {L : Nat} {v : V}

/-- A vector on which `f(A)` vanishes is annihilated by multiples of `f` only. -/
theorem aeval_eq_zero_iff (hf : f.Monic) (hL : f.natDegree = L) (h1 : 1 ≤ L)
    (ho : orderOf (AdjoinRoot.root f) = 2 ^ L - 1) (hv : v ≠ 0) (hfv : aeval A f v = 0) (g : GF2[X]) :
    aeval A g v = 0 ↔ f ∣ g := by
  have h2 : 2 ≤ 2 ^ L := by
    calc 2 = 2 ^ 1 := rfl
      _ ≤ 2 ^ L := Nat.pow_le_pow_right (by omega) h1
  constructor
  · intro hg
    by_contra hnd
    have hne : AdjoinRoot.mk f g ≠ 0 := fun h => hnd (AdjoinRoot.mk_eq_zero.1 h)
    obtain ⟨i, hi⟩ := eq_pow_of_order hf hL h1 ho _ hne
    have hT : AdjoinRoot.root f ^ (2 ^ L - 1) = 1 := by rw [← ho]; exact pow_orderOf_eq_one _
    have e : AdjoinRoot.mk f (X ^ (i * (2 ^ L - 1) - i) * g) = AdjoinRoot.mk f 1 := by
      rw [map_mul, map_pow, AdjoinRoot.mk_X, hi, ← pow_add, map_one,
        Nat.sub_add_cancel (Nat.le_mul_of_pos_right _ (by omega)), mul_comm i, pow_mul, hT, one_pow]
    obtain ⟨q, hq⟩ := AdjoinRoot.mk_eq_mk.1 e
    have hq : X ^ (i * (2 ^ L - 1) - i) * g = q * f + 1 := by rw [mul_comm q, ← hq, sub_add_cancel]
    have := congrArg (fun p => aeval A p v) hq
    simp only [map_add, map_mul, map_one, LinearMap.add_apply, Module.End.mul_apply, hg, hfv, map_zero, zero_add,
      Module.End.one_apply] at this
    exact hv this.symm
  · rintro ⟨q, rfl⟩
    rw [mul_comm, map_mul, Module.End.mul_apply, hfv, map_zero]

/-- All non-zero vectors lie on one cycle. -/
theorem exists_pow_apply (hf : f.Monic) (hL : f.natDegree = L) (h1 : 1 ≤ L)
    (ho : orderOf (AdjoinRoot.root f) = 2 ^ L - 1) (hv : v ≠ 0) (hfv : aeval A f v = 0)
    (hc : Nat.card V = 2 ^ L) (u : V) (hu : u ≠ 0) : ∃ i, u = (A ^ i) v := by
  have : Finite V := Nat.finite_of_card_ne_zero (by rw [hc]; positivity)
  let φ : AdjoinRoot f → V := fun a => aeval A (Classical.choose (AdjoinRoot.mk_surjective a)) v
  have hφ : ∀ a, AdjoinRoot.mk f (Classical.choose (AdjoinRoot.mk_surjective a)) = a := fun a =>
    Classical.choose_spec (AdjoinRoot.mk_surjective a)
  have hinj : Function.Injective φ := by
    intro a b hab
    rw [← hφ a, ← hφ b, AdjoinRoot.mk_eq_mk, ← aeval_eq_zero_iff A hf hL h1 ho hv hfv, map_sub, LinearMap.sub_apply]
    exact sub_eq_zero.2 hab
  have hbij := hinj.bijective_of_nat_card_le (by rw [hc, card_adjoinRoot hf, hL])
  obtain ⟨a, ha⟩ := hbij.2 u
  have hne : a ≠ 0 := by
    rintro rfl
    apply hu
    rw [← ha]
    show aeval A _ v = 0
    rw [aeval_eq_zero_iff A hf hL h1 ho hv hfv, ← AdjoinRoot.mk_eq_zero, hφ]
  obtain ⟨i, hi⟩ := eq_pow_of_order hf hL h1 ho a hne
  refine ⟨i, ?_⟩
  rw [← ha]
  show aeval A _ v = _
  have e : AdjoinRoot.mk f (Classical.choose (AdjoinRoot.mk_surjective a)) = AdjoinRoot.mk f (X ^ i) := by
    rw [hφ, hi, map_pow, AdjoinRoot.mk_X]
  have hd := AdjoinRoot.mk_eq_mk.1 e
  rw [← aeval_eq_zero_iff A hf hL h1 ho hv hfv, map_sub, LinearMap.sub_apply, sub_eq_zero, map_pow, aeval_X] at hd
  exact hd

/-- The cycle has length `2^L - 1`. -/
theorem pow_apply_eq_iff (hf : f.Monic) (hL : f.natDegree = L) (h1 : 1 ≤ L) (h0 : f.coeff 0 = 1)
    (ho : orderOf (AdjoinRoot.root f) = 2 ^ L - 1) (hv : v ≠ 0) (hfv : aeval A f v = 0) (i j : Nat) :
    (A ^ i) v = (A ^ j) v ↔ i ≡ j [MOD 2 ^ L - 1] := by
  have e : (A ^ i) v - (A ^ j) v = aeval A (X ^ i - X ^ j : GF2[X]) v := by
    rw [map_sub, map_pow, map_pow, aeval_X, LinearMap.sub_apply]
  rw [← sub_eq_zero, e, aeval_eq_zero_iff A hf hL h1 ho hv hfv, ← AdjoinRoot.mk_eq_mk, map_pow, map_pow, AdjoinRoot.mk_X]
  obtain ⟨u, hu⟩ := isUnit_root h0
  rw [← hu, ← Units.val_pow_eq_pow_val, ← Units.val_pow_eq_pow_val, Units.val_inj, pow_eq_pow_iff_modEq, ← orderOf_units, hu, ho]

end Trng.Gf2
