import Verif.Spec.HalfPeriod
import Verif.Proofs.Streams
import Mathlib.Algebra.Order.Chebyshev
import Mathlib.NumberTheory.LegendreSymbol.QuadraticChar.Basic

/-! The numbers of half a period of a multiple recursive generator: sums of the quadratic character. -/
namespace Trng.HalfPeriod
set_option linter.unusedSectionVars false
open Spec Trng.Uniform Matrix Streams

variable {p n d : ℕ} [Fact p.Prime] [NeZero n] {D : Matrix (Fin n) (Fin n) (ZMod p)} {v0 : Fin n → ZMod p}

/-! ### The quadratic character -/

/-- `(-1)^t` for the vector `D^t v0`, 0 for the vector 0. -/
noncomputable def chi (h : Cyclic D v0) (w : Fin n → ZMod p) : ℝ := by
  classical
  exact if hw : w = 0 then 0 else (-1) ^ (h.reach w hw).choose

variable (h : Cyclic D v0)

theorem chi_zero : chi h 0 = 0 := by simp [chi]

theorem chi_pow (h2 : 2 ∣ p ^ n - 1) (k : ℕ) : chi h (D ^ k *ᵥ v0) = (-1) ^ k := by
  have hne := mulVec_ne (h.unit.pow k) h.ne
  have hT := period_pos (p := p) (n := n)
  rw [chi, dif_neg hne]
  obtain ⟨h3, h4⟩ := (h.reach _ hne).choose_spec
  generalize (h.reach _ hne).choose = t at h3 h4
  have hk : D ^ k = D ^ (k % (p ^ n - 1)) := by rw [← h.order]; exact (pow_mod_orderOf D k).symm
  rw [hk] at h4
  have := h.inj (Finset.mem_coe.2 (Finset.mem_range.2 h3)) (Finset.mem_coe.2 (Finset.mem_range.2 (Nat.mod_lt k (by omega)))) h4
  rw [this]
  obtain ⟨c, hc⟩ := h2
  conv_rhs => rw [← Nat.mod_add_div k (p ^ n - 1)]
  rw [pow_add, hc, mul_assoc, pow_mul (-1 : ℝ) 2, neg_one_sq, one_pow, mul_one]

theorem chi_step (h2 : 2 ∣ p ^ n - 1) (w : Fin n → ZMod p) : chi h (D *ᵥ w) = - chi h w := by
  by_cases hw : w = 0
  · subst hw; rw [mulVec_zero, chi_zero, neg_zero]
  · obtain ⟨t, -, rfl⟩ := h.reach w hw
    rw [mulVec_mulVec, ← pow_succ', chi_pow h h2, chi_pow h h2, pow_succ, mul_neg_one]

theorem chi_sq (h2 : 2 ∣ p ^ n - 1) {w : Fin n → ZMod p} (hw : w ≠ 0) : chi h w * chi h w = 1 := by
  obtain ⟨t, -, rfl⟩ := h.reach w hw
  rw [chi_pow h h2, ← pow_add, ← two_mul, pow_mul, neg_one_sq, one_pow]

/-- The permutation of the vectors by `D`. -/
noncomputable def perm : (Fin n → ZMod p) ≃ (Fin n → ZMod p) := by
  refine Equiv.ofBijective (fun w => D *ᵥ w) ?_
  obtain ⟨u, hu⟩ := h.unit
  refine ⟨fun a b hab => ?_, fun b => ⟨(↑u⁻¹ : Matrix (Fin n) (Fin n) (ZMod p)) *ᵥ b, ?_⟩⟩
  · simp only at hab
    have := congrArg (fun w => (↑u⁻¹ : Matrix (Fin n) (Fin n) (ZMod p)) *ᵥ w) hab
    simpa only [← hu, mulVec_mulVec, Units.inv_mul, one_mulVec] using this
  · simp only [← hu, mulVec_mulVec, Units.mul_inv, one_mulVec]

theorem perm_apply (w : Fin n → ZMod p) : perm h w = D *ᵥ w := rfl

theorem sum_chi (h2 : 2 ∣ p ^ n - 1) : ∑ w, chi h w = 0 := by
  have := Equiv.sum_comp (perm h) (chi h)
  simp only [perm_apply, chi_step h h2, Finset.sum_neg_distrib] at this
  linarith

/-- The correlation of the character with its shift. -/
noncomputable def corr (z : Fin n → ZMod p) : ℝ := ∑ y, chi h y * chi h (y + z)

theorem corr_step (h2 : 2 ∣ p ^ n - 1) (z : Fin n → ZMod p) : corr h (D *ᵥ z) = corr h z := by
  rw [corr, ← Equiv.sum_comp (perm h)]
  refine Finset.sum_congr rfl fun y _ => ?_
  rw [perm_apply, ← mulVec_add, chi_step h h2, chi_step h h2, neg_mul_neg]

theorem card_ne : ((Finset.univ.erase (0 : Fin n → ZMod p)).card : ℝ) = (p : ℝ) ^ n - 1 := by
  rw [Finset.card_erase_of_mem (Finset.mem_univ _), Finset.card_univ, Fintype.card_fun, ZMod.card, Fintype.card_fin,
    Nat.cast_sub (Nat.one_le_pow _ _ (Fact.out : p.Prime).pos)]
  push_cast
  rfl

theorem corr_zero (h2 : 2 ∣ p ^ n - 1) : corr h 0 = (p : ℝ) ^ n - 1 := by
  rw [corr, ← card_ne (p := p) (n := n), ← Finset.add_sum_erase _ _ (Finset.mem_univ (0 : Fin n → ZMod p)), chi_zero, zero_mul, zero_add,
    Finset.sum_congr rfl (g := fun _ => 1) fun y hy => by rw [add_zero]; exact chi_sq h h2 (Finset.ne_of_mem_erase hy), Finset.sum_const, nsmul_eq_mul, mul_one]

theorem corr_ne (h2 : 2 ∣ p ^ n - 1) {z : Fin n → ZMod p} (hz : z ≠ 0) : corr h z = -1 := by
  have hc : ∀ z, z ≠ 0 → corr h z = corr h v0 := fun z hz => by
    obtain ⟨t, -, rfl⟩ := h.reach z hz
    clear hz
    induction t with
    | zero => rw [pow_zero, one_mulVec]
    | succ t ih => rw [pow_succ', ← mulVec_mulVec, corr_step h h2, ih]
  have hs : ∑ z, corr h z = 0 := by
    simp only [corr]
    rw [Finset.sum_comm]
    refine Finset.sum_eq_zero fun y _ => ?_
    have := Equiv.sum_comp (Equiv.addLeft y) (chi h)
    simp only [Equiv.coe_addLeft] at this
    rw [← Finset.mul_sum, this, sum_chi h h2, mul_zero]
  rw [← Finset.add_sum_erase _ _ (Finset.mem_univ (0 : Fin n → ZMod p)), corr_zero h h2,
    Finset.sum_congr rfl (g := fun _ => corr h v0) fun y hy => hc y (Finset.ne_of_mem_erase hy), Finset.sum_const, nsmul_eq_mul, card_ne] at hs
  have hp : (0 : ℝ) < (p : ℝ) ^ n - 1 := by
    have : 1 < p ^ n := by have := period_pos (p := p) (n := n); omega
    have : (1 : ℝ) < ((p ^ n : ℕ) : ℝ) := by exact_mod_cast this
    push_cast at this
    linarith
  rw [hc z hz]
  have : ((p : ℝ) ^ n - 1) * (1 + corr h v0) = 0 := by linarith
  rcases mul_eq_zero.1 this with h0 | h0
  · exact absurd h0 hp.ne'
  · linarith

/-! ### Fibres of a linear map -/

variable {P : (Fin n → ZMod p) →ₗ[ZMod p] (Fin d → ZMod p)}

/-- The sum of the character over the vectors that `P` maps to `a`. -/
noncomputable def fsum (P : (Fin n → ZMod p) →ₗ[ZMod p] (Fin d → ZMod p)) (a : Fin d → ZMod p) : ℝ := ∑ x, if P x = a then chi h x else 0

theorem fsum_sq (h2 : 2 ∣ p ^ n - 1) (hP : Function.Surjective P) : (∑ a, fsum h P a * fsum h P a) * (p : ℝ) ^ d = (p : ℝ) ^ n * ((p : ℝ) ^ d - 1) := by
  have h1 : ∑ a, fsum h P a * fsum h P a = ∑ z, if P z = 0 then corr h z else 0 := by
    have e1 : ∀ a, fsum h P a * fsum h P a = ∑ x, ∑ y, if P x = a then (if P y = a then chi h x * chi h y else 0) else 0 := fun a => by
      rw [fsum, Finset.sum_mul_sum]
      refine Finset.sum_congr rfl fun x _ => Finset.sum_congr rfl fun y _ => ?_
      split_ifs <;> simp
    simp only [e1]
    rw [Finset.sum_comm]
    have e2 : ∀ x, ∑ a, ∑ y, (if P x = a then (if P y = a then chi h x * chi h y else 0) else 0) = ∑ z, if P z = 0 then chi h x * chi h (x + z) else 0 := fun x => by
      rw [Finset.sum_comm, ← Equiv.sum_comp (Equiv.addLeft x)]
      refine Finset.sum_congr rfl fun z _ => ?_
      rw [Finset.sum_ite_eq]
      simp only [Finset.mem_univ, if_true, Equiv.coe_addLeft, map_add, add_eq_left]
    simp only [e2]
    rw [Finset.sum_comm]
    refine Finset.sum_congr rfl fun z _ => ?_
    split_ifs
    · rfl
    · exact Finset.sum_const_zero
  have hf := fibre_card P.toAddMonoidHom hP 0
  simp only [Fintype.card_fun, ZMod.card, Fintype.card_fin] at hf
  have hf' : ((Finset.univ.filter fun z => P z = 0).card : ℝ) * (p : ℝ) ^ d = (p : ℝ) ^ n := by exact_mod_cast hf
  have h3 : ∑ z, (if P z = 0 then corr h z else 0) = (p : ℝ) ^ n - (Finset.univ.filter fun z => P z = 0).card := by
    rw [← Finset.sum_filter, ← Finset.add_sum_erase _ _ (Finset.mem_filter.2 ⟨Finset.mem_univ (0 : Fin n → ZMod p), map_zero P⟩), corr_zero h h2,
      Finset.sum_congr rfl (g := fun _ => (-1 : ℝ)) fun y hy => corr_ne h h2 (Finset.ne_of_mem_erase hy), Finset.sum_const, nsmul_eq_mul,
      Finset.card_erase_of_mem (Finset.mem_filter.2 ⟨Finset.mem_univ (0 : Fin n → ZMod p), map_zero P⟩),
      Nat.cast_sub (Finset.card_pos.2 ⟨0, Finset.mem_filter.2 ⟨Finset.mem_univ (0 : Fin n → ZMod p), map_zero P⟩⟩)]
    push_cast
    ring
  rw [h1, h3, sub_mul, hf']
  ring

/-- The sum of the character over a set of fibres is small. -/
theorem fsum_set (h2 : 2 ∣ p ^ n - 1) (hP : Function.Surjective P) (W : Finset (Fin d → ZMod p)) :
    (∑ a ∈ W, fsum h P a) ^ 2 ≤ (p : ℝ) ^ n * ((p : ℝ) ^ d - 1) := by
  have hp : (0 : ℝ) < p := by exact_mod_cast (Fact.out : p.Prime).pos
  have h1 := fsum_sq h h2 hP
  have h3 : (∑ a ∈ W, fsum h P a) ^ 2 ≤ W.card * ∑ a ∈ W, fsum h P a ^ 2 := sq_sum_le_card_mul_sum_sq
  have h4 : ∑ a ∈ W, fsum h P a ^ 2 ≤ ∑ a, fsum h P a * fsum h P a := by
    simp only [← pow_two]
    exact Finset.sum_le_sum_of_subset_of_nonneg (Finset.subset_univ _) fun _ _ _ => sq_nonneg _
  have h5 : (W.card : ℝ) ≤ (p : ℝ) ^ d := by
    have := Finset.card_le_univ W
    rw [Fintype.card_fun, ZMod.card, Fintype.card_fin] at this
    exact_mod_cast this
  have h6 : 0 ≤ ∑ a ∈ W, fsum h P a ^ 2 := Finset.sum_nonneg fun _ _ => sq_nonneg _
  calc _ ≤ _ := h3
    _ ≤ (p : ℝ) ^ d * ∑ a ∈ W, fsum h P a ^ 2 := mul_le_mul_of_nonneg_right h5 h6
    _ ≤ (p : ℝ) ^ d * ∑ a, fsum h P a * fsum h P a := mul_le_mul_of_nonneg_left h4 (by positivity)
    _ = _ := by rw [← h1, mul_comm]

/-! ### Half the period -/

/-- The powers of `-D` are the squares. -/
theorem neg_pow_chi {T : ℕ} (hodd : T % 2 = 1) (hneg : (-D) ^ T = 1) (k : ℕ) : (-D) ^ k = D ^ (if k % 2 = 0 then k else k + T) := by
  split_ifs with hk
  · obtain ⟨j, hj⟩ := Nat.dvd_of_mod_eq_zero hk
    exact Even.neg_pow ⟨j, by omega⟩ D
  · rw [show (-D) ^ k = (-D) ^ (k + T) by rw [pow_add, hneg, mul_one]]
    exact Even.neg_pow ⟨(k + T) / 2, by omega⟩ D

theorem half_image (h2 : 2 ∣ p ^ n - 1) {T : ℕ} (hT : 2 * T = p ^ n - 1) (hodd : T % 2 = 1) (hneg : (-D) ^ T = 1) (Q : (Fin n → ZMod p) → Prop) [DecidablePred Q] :
    (((Finset.range T).filter fun k => Q ((-D) ^ k *ᵥ v0)).card : ℝ) * 2 = ∑ x, if Q x then chi h x * chi h x + chi h x else 0 := by
  classical
  have hpos : 0 < T := by omega
  have hc : ∀ k, chi h ((-D) ^ k *ᵥ v0) = 1 := fun k => by
    rw [neg_pow_chi hodd hneg, chi_pow h h2]
    split_ifs with hk
    · exact Even.neg_one_pow ⟨k / 2, by omega⟩
    · exact Even.neg_one_pow ⟨(k + T) / 2, by omega⟩
  have hcard : ((Finset.range T).filter fun k => Q ((-D) ^ k *ᵥ v0)).card = (Finset.univ.filter fun x => Q x ∧ chi h x = 1).card := by
    refine Finset.card_bij (fun k _ => (-D) ^ k *ᵥ v0) (fun k hk => ?_) (fun i hi j hj hij => ?_) fun x hx => ?_
    · exact Finset.mem_filter.2 ⟨Finset.mem_univ _, (Finset.mem_filter.1 hk).2, hc k⟩
    · have hi' := Finset.mem_range.1 (Finset.mem_filter.1 hi).1
      have hj' := Finset.mem_range.1 (Finset.mem_filter.1 hj).1
      simp only [neg_pow_chi hodd hneg] at hij
      have := h.inj (Finset.mem_coe.2 (Finset.mem_range.2 (by split_ifs <;> omega))) (Finset.mem_coe.2 (Finset.mem_range.2 (by split_ifs <;> omega))) hij
      split_ifs at this <;> omega
    · obtain ⟨-, hq, hx1⟩ := Finset.mem_filter.1 hx
      have hx0 : x ≠ 0 := by rintro rfl; rw [chi_zero] at hx1; norm_num at hx1
      obtain ⟨t, ht, rfl⟩ := h.reach x hx0
      rw [chi_pow h h2] at hx1
      have hte : t % 2 = 0 := by
        by_contra hne
        rw [Odd.neg_one_pow (Nat.odd_iff.2 (by omega))] at hx1
        norm_num at hx1
      have key : ∀ k, k < T → (if k % 2 = 0 then k else k + T) = t → ∃ (a : ℕ) (_ : a ∈ (Finset.range T).filter fun k => Q ((-D) ^ k *ᵥ v0)), (-D) ^ a *ᵥ v0 = D ^ t *ᵥ v0 := fun k hk e => by
        have : (-D) ^ k = D ^ t := by rw [neg_pow_chi hodd hneg, e]
        exact ⟨k, Finset.mem_filter.2 ⟨Finset.mem_range.2 hk, by rw [this]; exact hq⟩, by rw [this]⟩
      by_cases htT : t < T
      · exact key t htT (if_pos hte)
      · exact key (t - T) (by omega) (by rw [if_neg (by omega)]; omega)
  rw [hcard, ← Finset.sum_filter]
  have : ∑ x ∈ Finset.univ.filter (fun x => Q x), (chi h x * chi h x + chi h x) = ∑ x ∈ Finset.univ.filter (fun x => Q x), if chi h x = 1 then (2 : ℝ) else 0 := by
    refine Finset.sum_congr rfl fun x _ => ?_
    by_cases hx : x = 0
    · subst hx; rw [chi_zero]; norm_num
    · obtain ⟨t, -, rfl⟩ := h.reach x hx
      rw [chi_pow h h2]
      rcases neg_one_pow_eq_or ℝ t with e | e <;> rw [e] <;> norm_num
  rw [this, ← Finset.sum_filter, Finset.sum_const, nsmul_eq_mul, Finset.filter_filter]

/-- How often the values over half a period lie in a set of tuples. -/
theorem half_count (h2 : 2 ∣ p ^ n - 1) {T : ℕ} (hT : 2 * T = p ^ n - 1) (hodd : T % 2 = 1) (hneg : (-D) ^ T = 1) (hP : Function.Surjective P) (W : Finset (Fin d → ZMod p)) :
    (((Finset.range T).filter fun k => P ((-D) ^ k *ᵥ v0) ∈ W).card : ℝ) * 2 =
      W.card * ((p : ℝ) ^ n / (p : ℝ) ^ d) - (if (0 : Fin d → ZMod p) ∈ W then 1 else 0) + ∑ a ∈ W, fsum h P a := by
  have hp : (0 : ℝ) < p := by exact_mod_cast (Fact.out : p.Prime).pos
  rw [half_image h h2 hT hodd hneg fun x => P x ∈ W]
  have hfib : ∀ f : (Fin n → ZMod p) → ℝ, ∑ x, (if P x ∈ W then f x else 0) = ∑ a ∈ W, ∑ x, if P x = a then f x else 0 := fun f => by
    rw [Finset.sum_comm]
    refine Finset.sum_congr rfl fun x _ => ?_
    rw [Finset.sum_ite_eq]
  rw [hfib]
  have e1 : ∀ a, ∑ x, (if P x = a then chi h x * chi h x + chi h x else 0) = (p : ℝ) ^ n / (p : ℝ) ^ d - (if (0 : Fin d → ZMod p) = a then 1 else 0) + fsum h P a := fun a => by
    have : ∀ x, (if P x = a then chi h x * chi h x + chi h x else 0) = (if P x = a then 1 else 0) - (if x = 0 then (if P x = a then 1 else 0) else 0) + (if P x = a then chi h x else 0) := fun x => by
      by_cases hx : x = 0
      · subst hx; rw [chi_zero, if_pos rfl]; simp
      · rw [chi_sq h h2 hx, if_neg hx]; split_ifs <;> ring
    simp only [this]
    rw [Finset.sum_add_distrib, Finset.sum_sub_distrib, Finset.sum_ite_eq', if_pos (Finset.mem_univ _), map_zero, ← Finset.sum_filter, Finset.sum_const, nsmul_eq_mul, mul_one]
    have hf := fibre_card P.toAddMonoidHom hP a
    simp only [Fintype.card_fun, ZMod.card, Fintype.card_fin] at hf
    have hf' : ((Finset.univ.filter fun z => P z = a).card : ℝ) * (p : ℝ) ^ d = (p : ℝ) ^ n := by exact_mod_cast hf
    rw [eq_div_of_mul_eq (by positivity) hf']
    rfl
  simp only [e1]
  rw [Finset.sum_add_distrib, Finset.sum_sub_distrib, Finset.sum_const, nsmul_eq_mul, Finset.sum_ite_eq]

theorem half_arith {Q E R w δ S : ℝ} (hQ : Q = E * R) (hE : 1 ≤ E) (hR : 9 ≤ R) (hw : 0 ≤ w) (hw1 : w ≤ E) (hδ : δ = 0 ∨ δ = 1) (hS : S ^ 2 ≤ Q * (E - 1)) :
    |(w * (Q / E) - δ + S) / (Q - 1) - w / E| ≤ 1 / √R := by
  have hE0 : (0 : ℝ) < E := by linarith
  have hR0 : (0 : ℝ) < R := by linarith
  have hr : 3 ≤ √R := Real.le_sqrt_of_sq_le (by linarith)
  have hr2 : √R ^ 2 = R := Real.sq_sqrt hR0.le
  generalize √R = r at hr hr2
  subst hr2
  have hr0 : 0 < r := by linarith
  have hQ1 : 0 < Q - 1 := by rw [hQ]; nlinarith
  have e : (w * (Q / E) - δ + S) / (Q - 1) - w / E = (w / E - δ + S) / (Q - 1) := by
    field_simp
    ring
  have h1 : |w / E - δ| ≤ 1 := by
    have h3 : 0 ≤ w / E := by positivity
    have h4 : w / E ≤ 1 := (div_le_one hE0).2 hw1
    rw [abs_le]
    rcases hδ with rfl | rfl <;> constructor <;> linarith
  have h2 : |S| ≤ (Q - 1) / r - 1 := by
    have hB : (Q - 1) / r - 1 = E * r - 1 / r - 1 := by rw [hQ]; field_simp
    have hi : 1 / r ≤ 1 := by rw [div_le_one hr0]; linarith
    have hi0 : 0 < 1 / r := by positivity
    have hir : r * (1 / r) = 1 := mul_one_div_cancel hr0.ne'
    rw [hB]
    refine abs_le_of_sq_le_sq (hS.trans ?_) (by nlinarith)
    have h5 : (E * r - 1 / r - 1) ^ 2 = E ^ 2 * r ^ 2 - 2 * E * (r * (1 / r)) - 2 * E * r + (1 / r + 1) ^ 2 := by ring
    rw [h5, hir, hQ]
    have h6 : E * (2 * r + 2) ≤ E * r ^ 2 := mul_le_mul_of_nonneg_left (by nlinarith) hE0.le
    nlinarith [sq_nonneg (1 / r + 1)]
  rw [e, abs_div, abs_of_pos hQ1, div_le_div_iff₀ hQ1 hr0, one_mul]
  have h3 : |w / E - δ + S| ≤ (Q - 1) / r := (abs_add_le _ _).trans (by linarith)
  calc _ ≤ (Q - 1) / r * r := mul_le_mul_of_nonneg_right h3 hr0.le
    _ = _ := div_mul_cancel₀ _ hr0.ne'

include h in
/-- The fraction of half a period in which the values lie in a set of tuples. -/
theorem half_fraction (h2 : 2 ∣ p ^ n - 1) {T : ℕ} (hT : 2 * T = p ^ n - 1) (hodd : T % 2 = 1) (hneg : (-D) ^ T = 1) (hP : Function.Surjective P) (hp9 : 9 ≤ p)
    (W : Finset (Fin d → ZMod p)) :
    |(((Finset.range T).filter fun k => P ((-D) ^ k *ᵥ v0) ∈ W).card : ℝ) / T - W.card / (p : ℝ) ^ d| ≤ 1 / √((p : ℝ) ^ (n - d)) := by
  have hp : (0 : ℝ) < p := by exact_mod_cast (Fact.out : p.Prime).pos
  have hp1 : (1 : ℝ) ≤ p := by exact_mod_cast (Fact.out : p.Prime).one_lt.le
  have hW : (W.card : ℝ) ≤ (p : ℝ) ^ d := by
    have := Finset.card_le_univ W
    rw [Fintype.card_fun, ZMod.card, Fintype.card_fin] at this
    exact_mod_cast this
  have hpd : (0 : ℝ) < (p : ℝ) ^ d := by positivity
  by_cases hdn : n ≤ d
  · rw [Nat.sub_eq_zero_of_le hdn, pow_zero, Real.sqrt_one, div_one]
    obtain ⟨a1, a2⟩ := Independence.frac01 T fun k => P ((-D) ^ k *ᵥ v0) ∈ W
    have b1 : 0 ≤ (W.card : ℝ) / (p : ℝ) ^ d := by positivity
    have b2 : (W.card : ℝ) / (p : ℝ) ^ d ≤ 1 := (div_le_one hpd).2 hW
    have hc : (((Finset.range T).filter fun k => P ((-D) ^ k *ᵥ v0) ∈ W).card : ℝ) / T ≤ 1 := by convert a2
    have hc0 : 0 ≤ (((Finset.range T).filter fun k => P ((-D) ^ k *ᵥ v0) ∈ W).card : ℝ) / T := by positivity
    rw [abs_le]
    constructor <;> linarith
  · have hc := half_count h h2 hT hodd hneg hP W
    have hTr : (T : ℝ) * 2 = (p : ℝ) ^ n - 1 := by
      have h1 : ((2 * T : ℕ) : ℝ) = ((p ^ n - 1 : ℕ) : ℝ) := by rw [hT]
      rw [Nat.cast_sub (Nat.one_le_pow _ _ (Fact.out : p.Prime).pos)] at h1
      push_cast at h1
      linarith
    have e : ∀ c : ℝ, c / T = c * 2 / ((p : ℝ) ^ n - 1) := fun c => by
      rw [← hTr, mul_div_mul_right _ _ (by norm_num)]
    rw [e, hc]
    refine half_arith (E := (p : ℝ) ^ d) (R := (p : ℝ) ^ (n - d)) (by rw [← pow_add]; congr 1; omega) (one_le_pow₀ hp1) ?_ (by positivity) hW ?_ (fsum_set h h2 hP W)
    · calc (9 : ℝ) ≤ p := by exact_mod_cast hp9
        _ ≤ (p : ℝ) ^ (n - d) := le_self_pow₀ hp1 (by omega)
    · split_ifs <;> simp

/-! ### Single values -/

include h in
theorem scalar_pow {g : ZMod p} (hg : g ≠ 0) : ∃ t, D ^ t = g • (1 : Matrix (Fin n) (Fin n) (ZMod p)) := by
  obtain ⟨t, -, e⟩ := h.reach (g • v0) (by rw [Ne, smul_eq_zero]; push Not; exact ⟨hg, h.ne⟩)
  exact ⟨t, h.scalar_of e⟩

theorem chi_iter (h2 : 2 ∣ p ^ n - 1) (t : ℕ) (w : Fin n → ZMod p) : chi h (D ^ t *ᵥ w) = (-1) ^ t * chi h w := by
  induction t with
  | zero => rw [pow_zero, one_mulVec, pow_zero, one_mul]
  | succ t ih => rw [pow_succ', ← mulVec_mulVec, chi_step h h2, ih, pow_succ]; ring

theorem fsum_scale (h2 : 2 ∣ p ^ n - 1) {g : ZMod p} (hg : g ≠ 0) {t : ℕ} (ht : D ^ t = g • (1 : Matrix (Fin n) (Fin n) (ZMod p))) (a : Fin d → ZMod p) :
    fsum h P (g • a) = (-1) ^ t * fsum h P a := by
  have he : ∀ x : Fin n → ZMod p, D ^ t *ᵥ x = g • x := fun x => by rw [ht, smul_mulVec, one_mulVec]
  rw [fsum, fsum, Finset.mul_sum, ← Equiv.sum_comp (MulAction.toPerm (Units.mk0 g hg))]
  refine Finset.sum_congr rfl fun x _ => ?_
  have : (MulAction.toPerm (Units.mk0 g hg)) x = g • x := rfl
  rw [this, map_smul]
  by_cases hx : P x = a
  · rw [if_pos (by rw [hx]), if_pos hx, ← he, chi_iter h h2]
  · rw [if_neg fun hc => hx ?_, if_neg hx, mul_zero]
    have := congrArg (fun y => g⁻¹ • y) hc
    simpa only [smul_smul, inv_mul_cancel₀ hg, one_smul] using this

theorem fsum_neg (h2 : 2 ∣ p ^ n - 1) {T : ℕ} (hodd : T % 2 = 1) (hneg : (-D) ^ T = 1) (a : Fin d → ZMod p) : fsum h P (-a) = - fsum h P a := by
  have ht : D ^ T = (-1 : ZMod p) • (1 : Matrix (Fin n) (Fin n) (ZMod p)) := by
    rw [Odd.neg_pow (Nat.odd_iff.2 hodd)] at hneg
    rw [neg_one_smul, ← hneg, neg_neg]
  have := fsum_scale h (P := P) h2 (neg_ne_zero.2 one_ne_zero) ht a
  rw [Odd.neg_one_pow (Nat.odd_iff.2 hodd), neg_one_smul, neg_one_mul] at this
  exact this

theorem fsum_square (h2 : 2 ∣ p ^ n - 1) {g : ZMod p} (hg : g ≠ 0) (a : Fin d → ZMod p) : fsum h P ((g * g) • a) = fsum h P a := by
  obtain ⟨t, ht⟩ := scalar_pow h hg
  rw [mul_smul, fsum_scale h h2 hg ht, fsum_scale h h2 hg ht, ← mul_assoc, ← pow_add, ← two_mul, pow_mul, neg_one_sq, one_pow, one_mul]

/-- The sum over the vectors with a given first component. -/
theorem fsum_one {P : (Fin n → ZMod p) →ₗ[ZMod p] (Fin 1 → ZMod p)} (h2 : 2 ∣ p ^ n - 1) {T : ℕ} (hodd : T % 2 = 1) (hneg : (-D) ^ T = 1) (hP : Function.Surjective P)
    {a : Fin 1 → ZMod p} (ha : a ≠ 0) : fsum h P a ^ 2 = (p : ℝ) ^ (n - 1) := by
  have hp1 : (1 : ℝ) < p := by exact_mod_cast (Fact.out : p.Prime).one_lt
  have h0 : fsum h P 0 = 0 := by
    have := fsum_neg h (P := P) h2 hodd hneg 0
    rw [neg_zero] at this
    linarith
  have hall : ∀ b : Fin 1 → ZMod p, b ≠ 0 → fsum h P b * fsum h P b = fsum h P a ^ 2 := fun b hb => by
    have ha0 : a 0 ≠ 0 := fun hc => ha (funext fun i => by rw [Subsingleton.elim i 0]; exact hc)
    have hb0 : b 0 ≠ 0 := fun hc => hb (funext fun i => by rw [Subsingleton.elim i 0]; exact hc)
    have e : b = (b 0 * (a 0)⁻¹) • a := by
      funext i
      rw [Subsingleton.elim i 0, Pi.smul_apply, smul_eq_mul, mul_assoc, inv_mul_cancel₀ ha0, mul_one]
    have hg : b 0 * (a 0)⁻¹ ≠ 0 := mul_ne_zero hb0 (inv_ne_zero ha0)
    obtain ⟨t, ht⟩ := scalar_pow h hg
    rw [e, fsum_scale h h2 hg ht, ← pow_two, mul_pow, ← pow_mul, mul_comm t 2, pow_mul, neg_one_sq, one_pow, one_mul]
  have hs := fsum_sq h h2 hP
  rw [← Finset.add_sum_erase _ _ (Finset.mem_univ (0 : Fin 1 → ZMod p)), h0, mul_zero, zero_add,
    Finset.sum_congr rfl (g := fun _ => fsum h P a ^ 2) fun b hb => hall b (Finset.ne_of_mem_erase hb), Finset.sum_const, nsmul_eq_mul, card_ne (p := p) (n := 1), pow_one] at hs
  have hn : (p : ℝ) ^ n = (p : ℝ) ^ (n - 1) * p := by rw [← pow_succ, Nat.sub_add_cancel (Nat.one_le_iff_ne_zero.2 (NeZero.ne n))]
  rw [hn] at hs
  have : ((p : ℝ) - 1) * p * (fsum h P a ^ 2 - (p : ℝ) ^ (n - 1)) = 0 := by linarith
  rcases mul_eq_zero.1 this with hc | hc
  · exact absurd hc (mul_pos (by linarith) (by linarith)).ne'
  · linarith

include h in
/-- Squares are as frequent as 1, other values as -1. -/
theorem half_one {P : (Fin n → ZMod p) →ₗ[ZMod p] (Fin 1 → ZMod p)} (h2 : 2 ∣ p ^ n - 1) {T : ℕ} (hT : 2 * T = p ^ n - 1) (hodd : T % 2 = 1) (hneg : (-D) ^ T = 1)
    (hP : Function.Surjective P) (c : ZMod p → ℕ) (hc : ∀ a, c a = ((Finset.range T).filter fun k => P ((-D) ^ k *ᵥ v0) 0 = a).card) :
    2 * c 0 + 1 = p ^ (n - 1) ∧ (2 * (c 1 : ℤ) - p ^ (n - 1)) ^ 2 = p ^ (n - 1) ∧ c 1 + c (-1) = p ^ (n - 1) ∧ (∀ a, a ≠ 0 → IsSquare a → c a = c 1) ∧
      ∀ a, ¬ IsSquare a → c a = c (-1) := by
  have hp : (0 : ℝ) < p := by exact_mod_cast (Fact.out : p.Prime).pos
  have hn : (p : ℝ) ^ n / (p : ℝ) ^ 1 = (p : ℝ) ^ (n - 1) := by
    rw [div_eq_iff (by positivity), ← pow_add, Nat.sub_add_cancel (Nat.one_le_iff_ne_zero.2 (NeZero.ne n))]
  have hcr : ∀ a : ZMod p, (c a : ℝ) * 2 = (p : ℝ) ^ (n - 1) - (if a = 0 then 1 else 0) + fsum h P (fun _ => a) := fun a => by
    have := half_count h h2 hT hodd hneg hP {fun _ => a}
    simp only [Finset.mem_singleton, Finset.card_singleton, Nat.cast_one, one_mul, Finset.sum_singleton, hn] at this
    have e1 : ((0 : Fin 1 → ZMod p) = fun _ => a) ↔ a = 0 := ⟨fun e => (congrFun e 0).symm, fun e => by rw [e]; rfl⟩
    have e2 : ∀ k, P ((-D) ^ k *ᵥ v0) = (fun _ => a) ↔ P ((-D) ^ k *ᵥ v0) 0 = a := fun k =>
      ⟨fun e => congrFun e 0, fun e => funext fun i => by rw [Subsingleton.elim i 0]; exact e⟩
    simp only [e1, e2] at this
    rw [hc a, this]
  have hneg1 : ∀ a : ZMod p, fsum h P (fun _ => -a) = - fsum h P (fun _ => a) := fun a => fsum_neg h h2 hodd hneg (fun _ => a)
  have hsq : ∀ a : ZMod p, a ≠ 0 → IsSquare a → fsum h P (fun _ => a) = fsum h P (fun _ => 1) := fun a ha ⟨g, hg⟩ => by
    have hg0 : g ≠ 0 := by rintro rfl; rw [mul_zero] at hg; exact ha hg
    have := fsum_square h (P := P) h2 hg0 (fun _ => 1)
    rw [← hg] at this
    rw [← this]
    congr 1
    funext i
    simp
  have h1 : fsum h P (fun _ => 1) ^ 2 = (p : ℝ) ^ (n - 1) := fsum_one h h2 hodd hneg hP fun e => one_ne_zero (congrFun e 0)
  have h11 : fsum h P (fun _ => 1) ≠ 0 := fun e => by
    rw [e] at h1
    have : (0 : ℝ) < (p : ℝ) ^ (n - 1) := by positivity
    rw [← h1] at this
    norm_num at this
  have hm1 : ¬ IsSquare (-1 : ZMod p) := fun hs => by
    have := hsq (-1) (neg_ne_zero.2 one_ne_zero) hs
    rw [hneg1] at this
    exact h11 (by linarith)
  have hns : ∀ a : ZMod p, ¬ IsSquare a → fsum h P (fun _ => a) = fsum h P (fun _ => -1) := fun a ha => by
    have ha0 : a ≠ 0 := by rintro rfl; exact ha ⟨0, by simp⟩
    have : IsSquare (-a) := by
      rw [← quadraticChar_one_iff_isSquare (neg_ne_zero.2 ha0), ← neg_one_mul, map_mul, quadraticChar_neg_one_iff_not_isSquare.2 hm1,
        quadraticChar_neg_one_iff_not_isSquare.2 ha, neg_mul_neg, one_mul]
    rw [← neg_neg a, hneg1, hsq (-a) (neg_ne_zero.2 ha0) this, hneg1]
  have key : ∀ a b : ZMod p, a ≠ 0 → b ≠ 0 → fsum h P (fun _ => a) = fsum h P (fun _ => b) → c a = c b := fun a b ha hb e => by
    have e1 := hcr a
    have e2 := hcr b
    rw [if_neg ha] at e1
    rw [if_neg hb] at e2
    have : (c a : ℝ) = c b := by linarith
    exact_mod_cast this
  refine ⟨?_, ?_, ?_, fun a ha hs => key a 1 ha one_ne_zero (hsq a ha hs), fun a hs => key a (-1) ?_ (neg_ne_zero.2 one_ne_zero) (hns a hs)⟩
  · have e1 := hcr 0
    have e2 := hneg1 0
    rw [neg_zero] at e2
    rw [if_pos rfl, show fsum h P (fun _ => 0) = 0 by linarith] at e1
    have : 2 * (c 0 : ℝ) + 1 = (p : ℝ) ^ (n - 1) := by linarith
    exact_mod_cast this
  · have e1 := hcr 1
    rw [if_neg one_ne_zero] at e1
    have : (2 * (c 1 : ℝ) - (p : ℝ) ^ (n - 1)) ^ 2 = (p : ℝ) ^ (n - 1) := by rw [← h1]; congr 1; linarith
    exact_mod_cast this
  · have e1 := hcr 1
    have e2 := hcr (-1)
    rw [if_neg one_ne_zero] at e1
    rw [if_neg (neg_ne_zero.2 one_ne_zero), hneg1] at e2
    have : (c 1 : ℝ) + c (-1) = (p : ℝ) ^ (n - 1) := by linarith
    exact_mod_cast this
  · rintro rfl; exact hs ⟨0, by simp⟩

end Trng.HalfPeriod
