import Verif.Proofs.Gf2Poly
import Mathlib.LinearAlgebra.FreeModule.Finite.CardQuotient
import Mathlib.LinearAlgebra.Dimension.Free
import Mathlib.RingTheory.PowerBasis
import Mathlib.GroupTheory.OrderOfElement
import Mathlib.FieldTheory.Finiteness

/-! Residue rings of polynomials over GF(2) in which `X` has the largest possible order. -/
namespace Trng.Gf2
open LinAlg Polynomial

instance : Fintype GF2 := Fintype.ofEquiv (ZMod 2) GF2.equivZMod.symm.toEquiv
instance : Nontrivial GF2 := GF2.equivZMod.toEquiv.nontrivial
theorem card_gf2 : Nat.card GF2 = 2 := by
  rw [Nat.card_congr GF2.equivZMod.toEquiv, Nat.card_zmod]

/-- a number below `2^L` stands for a polynomial of degree below `L` -/
theorem degree_toPoly_lt {a L : Nat} (h : a < 2 ^ L) : (toPoly a).degree < L := by
  rw [degree_lt_iff_coeff_zero]
  intro m hm
  rw [coeff_toPoly, Nat.testBit_lt_two_pow (lt_of_lt_of_le h (Nat.pow_le_pow_right (by omega) hm))]
  rfl

theorem toPoly_ne_zero {a : Nat} (h : a ≠ 0) : toPoly a ≠ 0 := by
  obtain ⟨i, hi⟩ := Nat.exists_testBit_of_ne_zero h
  intro hc
  have := congrArg (fun p => (p.coeff i).value) hc
  simp only [coeff_toPoly, coeff_zero] at this
  rw [hi] at this
  exact absurd this (by decide)

/-- small non-zero numbers are not zero modulo `f` -/
theorem mk_toPoly_ne_zero {f : GF2[X]} (hf : f.Monic) {L a : Nat} (hL : f.natDegree = L) (h : a < 2 ^ L) (ha : a ≠ 0) :
    AdjoinRoot.mk f (toPoly a) ≠ 0 := by
  intro hc
  rw [AdjoinRoot.mk_eq_zero] at hc
  refine hf.not_dvd_of_degree_lt (toPoly_ne_zero ha) ?_ hc
  rw [degree_eq_natDegree hf.ne_zero, hL]
  exact degree_toPoly_lt h

theorem mk_toPoly_inj {f : GF2[X]} (hf : f.Monic) {L a b : Nat} (hL : f.natDegree = L) (ha : a < 2 ^ L) (hb : b < 2 ^ L)
    (h : AdjoinRoot.mk f (toPoly a) = AdjoinRoot.mk f (toPoly b)) : a = b := by
  by_contra hne
  refine mk_toPoly_ne_zero hf hL (Nat.xor_lt_two_pow ha hb) (a := a ^^^ b) ?_ ?_
  · intro h0; exact hne (Nat.xor_eq_zero_iff.1 h0)
  · rw [toPoly_xor, map_add, h, ← map_add, add_self, map_zero]

theorem finite_adjoinRoot {f : GF2[X]} (hf : f.Monic) : Finite (AdjoinRoot f) := by
  have : Module.Finite GF2 (AdjoinRoot f) := Module.Finite.of_basis (AdjoinRoot.powerBasis' hf).basis
  exact Module.finite_of_finite GF2

theorem card_adjoinRoot {f : GF2[X]} (hf : f.Monic) : Nat.card (AdjoinRoot f) = 2 ^ f.natDegree := by
  have h1 : Nat.card (AdjoinRoot f) = Nat.card (Fin (AdjoinRoot.powerBasis' hf).dim → GF2) :=
    Nat.card_congr (AdjoinRoot.powerBasis' hf).basis.equivFun.toEquiv
  rw [h1, Nat.card_fun, card_gf2, Nat.card_fin]
  rfl

/-- If `X` has order `2^L - 1` modulo a polynomial of degree `L`, every non-zero residue is a power
of `X`. -/
theorem eq_pow_of_order {f : GF2[X]} (hf : f.Monic) {L : Nat} (hL : f.natDegree = L) (h1 : 1 ≤ L)
    (ho : orderOf (AdjoinRoot.root f) = 2 ^ L - 1) (b : AdjoinRoot f) (hb : b ≠ 0) :
    ∃ i, b = AdjoinRoot.root f ^ i := by
  have hfin := finite_adjoinRoot hf
  have : Fintype (AdjoinRoot f) := Fintype.ofFinite _
  have hcard : Fintype.card (AdjoinRoot f) = 2 ^ L := by
    rw [← Nat.card_eq_fintype_card, card_adjoinRoot hf, hL]
  have h2 : 2 ≤ 2 ^ L := by
    calc 2 = 2 ^ 1 := rfl
      _ ≤ 2 ^ L := Nat.pow_le_pow_right (by omega) h1
  have hT : 0 < 2 ^ L - 1 := by omega
  have hpow1 : AdjoinRoot.root f ^ (2 ^ L - 1) = 1 := by rw [← ho]; exact pow_orderOf_eq_one _
  have hnt : Nontrivial (AdjoinRoot f) := by
    rw [← Fintype.one_lt_card_iff_nontrivial, hcard]; omega
  -- the powers are not zero
  have hne : ∀ i, AdjoinRoot.root f ^ i ≠ 0 := by
    intro i hc
    have : AdjoinRoot.root f ^ (i * (2 ^ L - 1)) = 1 := by rw [mul_comm, pow_mul, hpow1, one_pow]
    rw [pow_mul, hc, zero_pow (by omega)] at this
    exact zero_ne_one this
  let s : Finset (AdjoinRoot f) := (Finset.range (2 ^ L - 1)).image fun i => AdjoinRoot.root f ^ i
  have hs : s.card = 2 ^ L - 1 := by
    rw [Finset.card_image_of_injOn, Finset.card_range]
    intro i hi j hj hij
    have hi := Finset.mem_range.1 (Finset.mem_coe.1 hi)
    have hj := Finset.mem_range.1 (Finset.mem_coe.1 hj)
    obtain ⟨u, hu⟩ := IsUnit.of_pow_eq_one hpow1 (by omega)
    have hij : AdjoinRoot.root f ^ i = AdjoinRoot.root f ^ j := hij
    rw [← hu, ← Units.val_pow_eq_pow_val, ← Units.val_pow_eq_pow_val, Units.val_inj] at hij
    have := pow_inj_mod.1 hij
    rw [← orderOf_units, hu, ho, Nat.mod_eq_of_lt hi, Nat.mod_eq_of_lt hj] at this
    exact this
  have hsub : s ⊆ Finset.univ.erase 0 := by
    intro z hz
    obtain ⟨i, _, rfl⟩ := Finset.mem_image.1 hz
    exact Finset.mem_erase.2 ⟨hne i, Finset.mem_univ _⟩
  have heq : s = Finset.univ.erase 0 := by
    apply Finset.eq_of_subset_of_card_le hsub
    rw [Finset.card_erase_of_mem (Finset.mem_univ _), Finset.card_univ, hcard, hs]
  have : b ∈ s := by rw [heq]; exact Finset.mem_erase.2 ⟨hb, Finset.mem_univ _⟩
  obtain ⟨i, _, hi⟩ := Finset.mem_image.1 this
  exact ⟨i, hi.symm⟩


/-! ### the order of `X` -/

theorem isUnit_root {f : GF2[X]} (h : f.coeff 0 = 1) : IsUnit (AdjoinRoot.root f) := by
  have e := congrArg (AdjoinRoot.mk f) (divX_mul_X_add f)
  rw [AdjoinRoot.mk_self, map_add, map_mul, AdjoinRoot.mk_X, h, map_one, map_one] at e
  refine IsUnit.of_mul_eq_one (AdjoinRoot.mk f f.divX) ?_
  have e2 : (1 : AdjoinRoot f) + 1 = 0 := by
    rw [← map_one (AdjoinRoot.mk f), ← map_add, add_self, map_zero]
  have e3 : AdjoinRoot.mk f f.divX * AdjoinRoot.root f + 1 + 1 = 1 := by rw [e, zero_add]
  rw [mul_comm]
  rwa [add_assoc, e2, add_zero] at e3

theorem root_pow_card {f : GF2[X]} {L : Nat} (h0 : f.coeff 0 = 1)
    (hx : AdjoinRoot.root f ^ 2 ^ L = AdjoinRoot.root f) : AdjoinRoot.root f ^ (2 ^ L - 1) = 1 := by
  have hu := isUnit_root h0
  have hpos : 0 < 2 ^ L := by positivity
  apply hu.mul_left_cancel
  rw [← pow_succ', Nat.sub_add_cancel hpos, hx, mul_one]

/-- prime case -/
theorem order_of_prime {f : GF2[X]} (hf : f.Monic) {L : Nat} (hL : f.natDegree = L) (h2 : 2 ≤ L) (h0 : f.coeff 0 = 1)
    (hx : AdjoinRoot.root f ^ 2 ^ L = AdjoinRoot.root f) (hp : (2 ^ L - 1).Prime) :
    orderOf (AdjoinRoot.root f) = 2 ^ L - 1 := by
  have : Fact (2 ^ L - 1).Prime := ⟨hp⟩
  apply orderOf_eq_prime (root_pow_card h0 hx)
  intro h1
  have h4 : 2 ^ 2 ≤ 2 ^ L := Nat.pow_le_pow_right (by omega) h2
  have : (2 : Nat) = 1 := by
    apply mk_toPoly_inj hf hL (by omega) (by omega)
    rw [show (2 : Nat) = 2 ^ 1 from rfl, toPoly_two_pow, pow_one, AdjoinRoot.mk_X, toPoly_one, map_one, h1]
  omega

/-- with the prime factors -/
theorem order_of_factors {f : GF2[X]} (hf : f.Monic) {L : Nat} (hL : f.natDegree = L) (h2 : 2 ≤ L) (h0 : f.coeff 0 = 1)
    (hx : AdjoinRoot.root f ^ 2 ^ L = AdjoinRoot.root f) (fs : List Nat) (hfs : ∀ q ∈ fs, q.Prime)
    (hprod : fs.prod = 2 ^ L - 1)
    (hpow : ∀ q ∈ fs, ∃ r, r < 2 ^ L ∧ r ≠ 1 ∧
      AdjoinRoot.mk f (toPoly r) = AdjoinRoot.root f ^ ((2 ^ L - 1) / q)) :
    orderOf (AdjoinRoot.root f) = 2 ^ L - 1 := by
  have h4 : 2 ^ 2 ≤ 2 ^ L := Nat.pow_le_pow_right (by omega) h2
  apply orderOf_eq_of_pow_and_pow_div_prime (by omega) (root_pow_card h0 hx)
  intro p hp hpd hc
  rw [← hprod] at hpd
  obtain ⟨q, hq, hpq⟩ := (Prime.dvd_prod_iff (Nat.prime_iff.1 hp)).1 hpd
  have := (Nat.prime_dvd_prime_iff_eq hp (hfs q hq)).1 hpq
  subst this
  obtain ⟨r, hr, hr1, e⟩ := hpow p hq
  rw [hc, ← map_one (AdjoinRoot.mk f), ← toPoly_one] at e
  exact hr1 (mk_toPoly_inj hf hL hr (by omega) e)

end Trng.Gf2
