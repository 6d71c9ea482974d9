import Verif.Proofs.MRGPrim
import Mathlib.RingTheory.AdjoinRoot
import Mathlib.FieldTheory.Finite.Basic
import Mathlib.FieldTheory.Minpoly.Field
import Mathlib.FieldTheory.IntermediateField.Adjoin.Basic

/-! If the order of the companion matrix is large, decimated sequences of a five-term engine have no shorter
recurrence. -/
namespace Trng.MRG
open IntMath Matrix PowMod Polynomial LinRec

variable {n m : Nat}

theorem aeval_eq_pol (a : Fin n → Int) (p : (ZMod m)[X]) (hp : p.natDegree < n) :
    aeval (comp m a) p = pol m a fun i => p.coeff i.val := by
  rw [aeval_eq_sum_range' hp]
  unfold pol
  rw [← Fin.sum_univ_eq_sum_range (fun i => p.coeff i • comp m a ^ i)]

/-- the characteristic polynomial -/
noncomputable def chi (m : Nat) (a : Fin n → Int) : (ZMod m)[X] := (comp m a).charpoly

theorem chi_monic (a : Fin n → Int) : (chi m a).Monic := charpoly_monic _

theorem chi_degree [Fact m.Prime] (a : Fin n → Int) : (chi m a).natDegree = n := by
  unfold chi; rw [charpoly_natDegree_eq_dim, Fintype.card_fin]

theorem mod_degree [Fact m.Prime] (a : Fin n → Int) (hn : 0 < n) (p : (ZMod m)[X]) :
    (p %ₘ chi m a).natDegree < n := by
  have := natDegree_modByMonic_lt p (chi_monic (m := m) a) (by
    intro h
    have h1 := chi_degree (m := m) a
    rw [h, natDegree_one] at h1
    omega)
  rwa [chi_degree] at this

theorem aeval_mod [Fact m.Prime] (a : Fin n → Int) (p : (ZMod m)[X]) :
    aeval (comp m a) (p %ₘ chi m a) = aeval (comp m a) p := by
  have h : aeval (comp m a) (chi m a) = 0 := aeval_self_charpoly _
  conv_rhs => rw [← modByMonic_add_div p (chi m a)]
  rw [map_add, map_mul, h, zero_mul, add_zero]

theorem aeval_isPol [Fact m.Prime] (a : Fin n → Int) (hn : 0 < n) (p : (ZMod m)[X]) :
    ∃ l, aeval (comp m a) p = pol m a l := by
  rw [← aeval_mod]
  exact ⟨_, aeval_eq_pol a _ (mod_degree a hn p)⟩

theorem aeval_eq_zero_iff [Fact m.Prime] (a : Fin n → Int) (hn : 0 < n) (p : (ZMod m)[X]) :
    aeval (comp m a) p = 0 ↔ chi m a ∣ p := by
  rw [← aeval_mod, aeval_eq_pol a _ (mod_degree a hn p), ← modByMonic_eq_zero_iff_dvd (chi_monic a), ← pol_zero a,
    (pol_injective a).eq_iff]
  constructor
  · intro h
    ext i
    by_cases hi : i < n
    · exact congrFun h ⟨i, hi⟩
    · rw [coeff_zero, coeff_eq_zero_of_natDegree_lt (lt_of_lt_of_le (mod_degree a hn p) (by omega))]
  · intro h
    rw [h]; rfl

theorem chi_irreducible [Fact m.Prime] {a : Fin n → Int} (hn : 0 < n) (ha : ∀ i, 0 ≤ a i)
    (hN : m ^ n - 1 < 2 ^ 160) {c : ZMod m} (hord : orderOf (c • comp m a) = m ^ n - 1) :
    Irreducible (chi m a) := by
  have hne : chi m a ≠ 0 := (chi_monic a).ne_zero
  refine ⟨?_, ?_⟩
  · intro hu
    have := natDegree_eq_zero_of_isUnit hu
    rw [chi_degree] at this
    omega
  · intro p q hpq
    by_cases hp : aeval (comp m a) p = 0
    · right
      obtain ⟨t, ht⟩ := (aeval_eq_zero_iff a hn p).1 hp
      have hp0 : p ≠ 0 := by rintro rfl; rw [zero_mul] at hpq; exact hne hpq
      rw [hpq, mul_assoc] at ht
      exact IsUnit.of_mul_eq_one t (mul_left_cancel₀ hp0 (by rw [← ht, mul_one]))
    · left
      obtain ⟨l, hl⟩ := aeval_isPol a hn p
      have hl0 : l ≠ 0 := by rintro rfl; rw [pol_zero] at hl; exact hp hl
      have hunit := pol_isUnit hn ha hN hord l hl0
      rw [← hl] at hunit
      have h0 : aeval (comp m a) p * aeval (comp m a) q = 0 := by
        rw [← map_mul, ← hpq]; exact aeval_self_charpoly _
      have hq : aeval (comp m a) q = 0 := (hunit.mul_right_eq_zero).1 h0
      obtain ⟨t, ht⟩ := (aeval_eq_zero_iff a hn q).1 hq
      have hq0 : q ≠ 0 := by rintro rfl; rw [mul_zero] at hpq; exact hne hpq
      rw [hpq] at ht
      have : q * (p * t) = q * 1 := by rw [mul_one]; conv_rhs => rw [ht]
                                       ring
      exact IsUnit.of_mul_eq_one t (mul_left_cancel₀ hq0 this)

/-- A power of the companion matrix whose exponent is small has no annihilating polynomial of degree less
than `n`, if `n` is prime. -/
theorem no_small_annihilator [Fact m.Prime] {a : Fin n → Int} (hn : n.Prime)
    (hirr : Irreducible (chi m a)) {s : Nat} (hs : ¬ orderOf (comp m a) ∣ s * (m - 1))
    (p : (ZMod m)[X]) (hp : p.natDegree < n) (h : aeval (comp m a ^ s) p = 0) : p = 0 := by
  have hfact : Fact (Irreducible (chi m a)) := ⟨hirr⟩
  have hmon := chi_monic (m := m) a
  have hn0 := hn.pos
  have htrans : ∀ q : (ZMod m)[X], aeval (comp m a) q = 0 ↔ AdjoinRoot.mk (chi m a) q = 0 := by
    intro q
    rw [aeval_eq_zero_iff a hn0, AdjoinRoot.mk_eq_zero]
  obtain ⟨θ, hθ⟩ : ∃ θ, θ = AdjoinRoot.root (chi m a) ^ s := ⟨_, rfl⟩
  have hpθ : aeval θ p = 0 := by
    have h1 : aeval (comp m a) (p.comp (X ^ s)) = 0 := by rw [aeval_comp, map_pow, aeval_X]; exact h
    have h2 := (htrans _).1 h1
    rw [← AdjoinRoot.aeval_eq, aeval_comp, map_pow, aeval_X] at h2
    rw [hθ]; exact h2
  by_contra hp0
  have hfin : Module.Finite (ZMod m) (AdjoinRoot (chi m a)) := hmon.finite_adjoinRoot
  have hrank : Module.finrank (ZMod m) (AdjoinRoot (chi m a)) = n := by
    rw [(AdjoinRoot.powerBasis hmon.ne_zero).finrank, AdjoinRoot.powerBasis_dim, chi_degree]
  have hint : IsIntegral (ZMod m) θ := Algebra.IsIntegral.isIntegral θ
  have hdvd : (minpoly (ZMod m) θ).natDegree ∣ n := by
    have h1 := minpoly.degree_dvd hint
    rwa [hrank] at h1
  have hle : (minpoly (ZMod m) θ).natDegree ≤ p.natDegree :=
    natDegree_le_of_dvd (minpoly.dvd _ _ hpθ) hp0
  have hone : (minpoly (ZMod m) θ).natDegree = 1 := by
    rcases (Nat.dvd_prime hn).1 hdvd with h1 | h1
    · exact h1
    · omega
  obtain ⟨x, hx⟩ := minpoly.natDegree_eq_one_iff.1 hone
  have hpow : θ ^ (m - 1) = 1 := by
    have hxne : x ≠ 0 := by
      rintro rfl
      rw [map_zero] at hx
      rw [← hx] at hθ
      have h4 : AdjoinRoot.root (chi m a) = 0 := by
        by_contra hc
        exact (pow_ne_zero s hc) hθ.symm
      have h5 : aeval (comp m a) (X : (ZMod m)[X]) = 0 := (htrans X).2 h4
      rw [aeval_X] at h5
      have h6 := (aeval_eq_zero_iff (m := m) a hn0 X).1 (by rw [aeval_X]; exact h5)
      have h7 := natDegree_le_of_dvd h6 X_ne_zero
      rw [chi_degree, natDegree_X] at h7
      have := hn.two_le
      omega
    rw [← hx, ← map_pow, ZMod.pow_card_sub_one_eq_one hxne, map_one]
  apply hs
  rw [orderOf_dvd_iff_pow_eq_one]
  have h8 : AdjoinRoot.mk (chi m a) (X ^ (s * (m - 1)) - 1) = 0 := by
    rw [map_sub, map_pow, map_one, AdjoinRoot.mk_X, pow_mul, ← hθ, hpow, sub_self]
  have h9 := (htrans _).2 h8
  rw [map_sub, map_pow, aeval_X, map_one] at h9
  exact sub_eq_zero.1 h9

/-- If all entries `(C^j y)_0` vanish, `y` vanishes. -/
theorem observable [NeZero n] [Fact m.Prime] {a : Fin n → Int} (hunit : IsUnit (comp m a)) {y : Fin n → ZMod m}
    (h : ∀ j, (comp m a ^ j *ᵥ y) 0 = 0) : y = 0 := by
  have h1 : comp m a ^ (n - 1) *ᵥ y = 0 := by
    funext i
    have := h (n - 1 - i.val)
    simp only [mulVec, dotProduct] at this ⊢
    rw [Pi.zero_apply, ← this]
    refine Finset.sum_congr rfl fun j _ => ?_
    rw [comp_pow_apply, if_pos (by have := i.isLt; omega)]
    rfl
  obtain ⟨u, hu⟩ := hunit.pow (n - 1)
  rw [← hu] at h1
  have : (↑u⁻¹ : Matrix (Fin n) (Fin n) (ZMod m)) *ᵥ ((u : Matrix (Fin n) (Fin n) (ZMod m)) *ᵥ y) = y := by
    rw [mulVec_mulVec, Units.inv_mul, one_mulVec]
  rw [← this, h1, mulVec_zero]

/-- The polynomials of degree less than `n` in a matrix without small annihilator exhaust the polynomials in
the companion matrix. -/
theorem exhaust [Fact m.Prime] {a : Fin n → Int} (hn : 0 < n) {s : Nat}
    (hann : ∀ p : (ZMod m)[X], p.natDegree < n → aeval (comp m a ^ s) p = 0 → p = 0) (j : Nat) :
    ∃ l : Fin n → ZMod m, comp m a ^ j = ∑ i : Fin n, l i • (comp m a ^ s) ^ i.val := by
  classical
  -- coefficient vectors with respect to the companion matrix
  have hco : ∀ l : Fin n → ZMod m, ∃ w, (∑ i : Fin n, l i • (comp m a ^ s) ^ i.val) = pol m a w := by
    intro l
    have := aeval_isPol (m := m) a hn (∑ i : Fin n, C (l i) * (X ^ s) ^ i.val)
    rw [map_sum] at this
    simp only [map_mul, map_pow, aeval_X, aeval_C, ← Algebra.smul_def] at this
    exact this
  choose w hw using hco
  have hinj : Function.Injective w := by
    intro l l' hll
    have h1 : (∑ i : Fin n, l i • (comp m a ^ s) ^ i.val) - ∑ i : Fin n, l' i • (comp m a ^ s) ^ i.val = 0 := by
      rw [hw, hw, hll, sub_self]
    have h2 : (∑ i : Fin n, C (l i - l' i) * X ^ i.val : (ZMod m)[X]) = 0 := by
      refine hann _ ?_ ?_
      · refine lt_of_le_of_lt (natDegree_sum_le_of_forall_le (n := n - 1) _ _ fun i _ => ?_) (by omega)
        refine (natDegree_C_mul_X_pow_le _ _).trans (by have := i.isLt; omega)
      · rw [map_sum]
        simp only [map_mul, map_pow, aeval_X, aeval_C, ← Algebra.smul_def, sub_smul, Finset.sum_sub_distrib]
        exact h1
    funext i
    have h3 := congrArg (fun p => coeff p i.val) h2
    simp only [finsetSum_coeff, coeff_C_mul, coeff_X_pow, coeff_zero] at h3
    rw [Finset.sum_eq_single i] at h3
    · rw [if_pos rfl, mul_one] at h3
      exact sub_eq_zero.1 h3
    · intro b _ hb
      rw [if_neg (fun hc => hb (Fin.ext hc.symm)), mul_zero]
    · intro hc; exact absurd (Finset.mem_univ _) hc
  have hsur := Finite.surjective_of_injective hinj
  obtain ⟨v, hv⟩ := aeval_isPol (m := m) a hn (X ^ j)
  rw [map_pow, aeval_X] at hv
  obtain ⟨l, hl⟩ := hsur v
  exact ⟨l, by rw [hw, hl, hv]⟩

theorem noShort_of_order [NeZero n] [Fact m.Prime] (hm : IsEngineModulus m) (hn5 : n = 5) {e : MRG n}
    (h : Valid m e) {c : ZMod m} (hord : orderOf (c • comp m e.a) = m ^ n - 1) {s : Nat}
    (hs : ¬ orderOf (comp m e.a) ∣ s * (m - 1)) : NoShort m e s := by
  obtain ⟨m1, m2⟩ := engineModulus_bounds hm
  have hn : n ≤ 5 := by omega
  have hn0 : 0 < n := by omega
  have hpr : n.Prime := by rw [hn5]; decide
  have hN : m ^ n - 1 < 2 ^ 160 := by
    have : m ^ n ≤ (2 ^ 31) ^ 5 := by rw [hn5]; exact Nat.pow_le_pow_left m2.le 5
    have : (2 ^ 31) ^ 5 < 2 ^ 160 := by norm_num
    omega
  have ha : ∀ i, 0 ≤ e.a i := fun i => (h.a i).1
  have hirr := chi_irreducible hn0 ha hN hord
  have hann := no_small_annihilator hpr hirr hs
  have hunit : IsUnit (comp m e.a) := by
    have hx : comp m e.a = pol m e.a (fun i => (X : (ZMod m)[X]).coeff i.val) := by
      rw [← aeval_eq_pol e.a X (by rw [natDegree_X]; omega), aeval_X]
    rw [hx]
    refine pol_isUnit hn0 ha hN hord _ fun hc => ?_
    have := congrFun hc ⟨1, by omega⟩
    simp at this
  intro o' k z hk0 hk5 hrec
  obtain ⟨o, ho⟩ : ∃ o, o = o' + 1 := ⟨_, rfl⟩
  rw [← ho] at hrec ⊢
  obtain ⟨w, hw⟩ : ∃ w, w = comp m e.a ^ o *ᵥ castV m e.r := ⟨_, rfl⟩
  have hout : ∀ i, out m e (o + s * i) = ((comp m e.a ^ s) ^ i *ᵥ w) 0 := by
    intro i
    rw [out_eq hm hn h, hw, mulVec_mulVec, ← pow_mul, ← pow_add, add_comm]
  -- the polynomial of the recurrence
  obtain ⟨g, hg⟩ : ∃ g : (ZMod m)[X], g = X ^ k - ∑ c ∈ Finset.range k, C (z c) * X ^ (k - 1 - c) := ⟨_, rfl⟩
  have hsum : (∑ c ∈ Finset.range k, C (z c) * X ^ (k - 1 - c) : (ZMod m)[X]).natDegree ≤ k - 1 := by
    refine natDegree_sum_le_of_forall_le _ _ fun c _ => ?_
    exact (natDegree_C_mul_X_pow_le _ _).trans (by omega)
  have hg0 : g ≠ 0 := by
    intro h0
    have h1 := congrArg (fun p => coeff p k) (hg.symm.trans h0)
    simp only [coeff_sub, coeff_X_pow_self, coeff_zero] at h1
    rw [coeff_eq_zero_of_natDegree_lt (lt_of_le_of_lt hsum (by omega)), sub_zero] at h1
    exact one_ne_zero h1
  have hgd : g.natDegree < n := by
    rw [hg]
    refine lt_of_le_of_lt (natDegree_sub_le _ _) ?_
    rw [natDegree_X_pow]
    omega
  have hG : aeval (comp m e.a ^ s) g = (comp m e.a ^ s) ^ k - ∑ c ∈ Finset.range k, z c • (comp m e.a ^ s) ^ (k - 1 - c) := by
    rw [hg]
    simp only [map_sub, map_sum, map_mul, map_pow, aeval_X, aeval_C, ← Algebra.smul_def]
  obtain ⟨G, hGd⟩ : ∃ G, G = aeval (comp m e.a ^ s) g := ⟨_, rfl⟩
  have hGu : IsUnit G := by
    have : G = aeval (comp m e.a) (g.comp (X ^ s)) := by rw [hGd, aeval_comp, map_pow, aeval_X]
    obtain ⟨l, hl⟩ := aeval_isPol (m := m) e.a hn0 (g.comp (X ^ s))
    rw [this, hl]
    refine pol_isUnit hn0 ha hN hord l fun h0 => ?_
    rw [h0, pol_zero, ← this, hGd] at hl
    exact hg0 (hann g hgd hl)
  have h1 : ∀ i, ((comp m e.a ^ s) ^ i *ᵥ (G *ᵥ w)) 0 = 0 := by
    intro i
    have h2 := hrec i
    simp only [hout] at h2
    rw [hGd, hG, mulVec_mulVec, mul_sub, sub_mulVec, Finset.mul_sum, sum_mulVec, Pi.sub_apply, Finset.sum_apply,
      ← pow_add, h2, sub_eq_zero]
    refine Finset.sum_congr rfl fun c hc => ?_
    rw [Finset.mem_range] at hc
    rw [mul_smul_comm, smul_mulVec, Pi.smul_apply, smul_eq_mul, ← pow_add,
      show i + (k - 1 - c) = i + k - 1 - c by omega]
  have h3 : G *ᵥ w = 0 := by
    refine observable hunit fun j => ?_
    obtain ⟨l, hl⟩ := exhaust hn0 hann j
    rw [hl, sum_mulVec, Finset.sum_apply]
    refine Finset.sum_eq_zero fun i _ => ?_
    rw [smul_mulVec, Pi.smul_apply, h1, smul_zero]
  have h4 : w = 0 := by
    obtain ⟨u, hu⟩ := hGu
    rw [← hu] at h3
    have : (↑u⁻¹ : Matrix (Fin n) (Fin n) (ZMod m)) *ᵥ ((u : Matrix (Fin n) (Fin n) (ZMod m)) *ᵥ w) = w := by
      rw [mulVec_mulVec, Units.inv_mul, one_mulVec]
    rw [← this, h3, mulVec_zero]
  intro i
  rw [hout, h4, mulVec_zero, Pi.zero_apply]

end Trng.MRG
