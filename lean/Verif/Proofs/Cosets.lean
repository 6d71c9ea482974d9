import Verif.Proofs.HalfPeriodEngines
import Mathlib.Analysis.SpecialFunctions.Complex.CircleAddChar
import Mathlib.LinearAlgebra.Matrix.ToLin
import Mathlib.RingTheory.Polynomial.DegreeLT

/-! The numbers of every s-th call of a multiple recursive generator: sums of additive characters over cosets. -/
namespace Trng.Cosets
set_option linter.unusedSectionVars false
open Spec Trng.Uniform Matrix Streams

variable {p n d : ℕ} [Fact p.Prime] [NeZero n] {D : Matrix (Fin n) (Fin n) (ZMod p)} {v0 : Fin n → ZMod p}

/-! ### Sums of characters -/

theorem orth (x : Fin d → ZMod p) :
    ∑ w : Fin d → ZMod p, (ZMod.stdAddChar (w ⬝ᵥ x) : ℂ) = if x = 0 then (p : ℂ) ^ d else 0 := by
  have h1 : ∀ w : Fin d → ZMod p, (ZMod.stdAddChar (w ⬝ᵥ x) : ℂ) = ∏ i, ZMod.stdAddChar (w i * x i) := fun w => by
    rw [dotProduct]
    exact map_prod (ZMod.stdAddChar (N := p)).toMonoidHom (fun i => Multiplicative.ofAdd (w i * x i)) Finset.univ
  have h2 := (Finset.prod_univ_sum (fun _ : Fin d => (Finset.univ : Finset (ZMod p))) (fun i c => (ZMod.stdAddChar (c * x i) : ℂ))).symm
  rw [Fintype.piFinset_univ] at h2
  rw [Finset.sum_congr rfl fun w _ => h1 w, h2,
    Finset.prod_congr rfl fun i _ => AddChar.sum_mulShift (x i) (ZMod.isPrimitive_stdAddChar p)]
  split_ifs with h
  · subst h; simp [ZMod.card]
  · obtain ⟨i, hi⟩ := Function.ne_iff.1 h
    exact Finset.prod_eq_zero (Finset.mem_univ i) (by rw [if_neg (by simpa using hi)]; simp)

/-- The sum of a character over a set of vectors. -/
noncomputable def csum (A : Finset (Fin d → ZMod p)) (w : Fin d → ZMod p) : ℂ := ∑ x ∈ A, ZMod.stdAddChar (w ⬝ᵥ x)

theorem conj_csum (A : Finset (Fin d → ZMod p)) (w : Fin d → ZMod p) :
    (starRingEnd ℂ) (csum A w) = ∑ x ∈ A, ZMod.stdAddChar (-(w ⬝ᵥ x)) := by
  rw [csum, map_sum]
  exact Finset.sum_congr rfl fun x _ => (AddChar.map_neg_eq_conj _ _).symm

theorem csum_zero (A : Finset (Fin d → ZMod p)) : csum A 0 = A.card := by simp [csum]

theorem parseval (A : Finset (Fin d → ZMod p)) : ∑ w, ‖csum A w‖ ^ 2 = (p : ℝ) ^ d * A.card := by
  classical
  have key : ∑ w, csum A w * (starRingEnd ℂ) (csum A w) = (p : ℂ) ^ d * A.card := by
    have e : ∀ w, csum A w * (starRingEnd ℂ) (csum A w) = ∑ x ∈ A, ∑ y ∈ A, ZMod.stdAddChar (w ⬝ᵥ (x - y)) := fun w => by
      rw [conj_csum, csum, Finset.sum_mul_sum]
      refine Finset.sum_congr rfl fun x _ => Finset.sum_congr rfl fun y _ => ?_
      rw [dotProduct_sub, sub_eq_add_neg, AddChar.map_add_eq_mul]
    rw [Finset.sum_congr rfl fun w _ => e w, Finset.sum_comm]
    have e2 : ∀ x ∈ A, ∑ w, ∑ y ∈ A, (ZMod.stdAddChar (w ⬝ᵥ (x - y)) : ℂ) = (p : ℂ) ^ d := fun x hx => by
      rw [Finset.sum_comm, Finset.sum_congr rfl fun y _ => orth (x - y)]
      simp only [sub_eq_zero]
      rw [Finset.sum_ite_eq A x, if_pos hx]
    rw [Finset.sum_congr rfl e2, Finset.sum_const, nsmul_eq_mul, mul_comm]
  have : ((∑ w, ‖csum A w‖ ^ 2 : ℝ) : ℂ) = (((p : ℝ) ^ d * A.card : ℝ) : ℂ) := by
    push_cast
    rw [← key]
    exact Finset.sum_congr rfl fun w _ => (Complex.mul_conj' _).symm
  exact_mod_cast this

theorem csum_mul {A : Finset (Fin n → ZMod p)} {M : Matrix (Fin n) (Fin n) (ZMod p)} (hM : IsUnit M) (hA : ∀ x ∈ A, M *ᵥ x ∈ A)
    (w : Fin n → ZMod p) : csum A (w ᵥ* M) = csum A w := by
  classical
  have hinj : Function.Injective fun x => M *ᵥ x := Matrix.mulVec_injective_iff_isUnit.2 hM
  have himg : A.image (fun x => M *ᵥ x) = A := Finset.eq_of_subset_of_card_le (Finset.image_subset_iff.2 hA)
    (by rw [Finset.card_image_of_injective _ hinj])
  conv_rhs => rw [csum, ← himg, Finset.sum_image hinj.injOn]
  exact Finset.sum_congr rfl fun x _ => by rw [dotProduct_mulVec]

/-- What leaves a vector unchanged is the unit matrix. -/
theorem unit_sub (h : Cyclic D v0) {t : ℕ} (ht : D ^ t ≠ 1) : IsUnit (D ^ t - 1) := by
  rw [← Matrix.mulVec_injective_iff_isUnit]
  refine (injective_iff_map_eq_zero (Matrix.mulVecLin (D ^ t - 1))).2 fun x hx => ?_
  by_contra hne
  obtain ⟨a, -, rfl⟩ := h.reach x hne
  apply ht
  have h1 : D ^ t *ᵥ (D ^ a *ᵥ v0) = D ^ a *ᵥ v0 := by
    rw [mulVecLin_apply, sub_mulVec, one_mulVec, sub_eq_zero] at hx
    exact hx
  have h2 := (h.shift a).scalar_of (g := 1) (L := t) (by rw [one_smul]; exact h1)
  rw [h2, one_smul]

theorem csum_bound (h : Cyclic D v0) (s : ℕ) {A : Finset (Fin n → ZMod p)} (hA : ∀ x ∈ A, D ^ s *ᵥ x ∈ A) (hc : A.card ≤ orderOf (D ^ s))
    {w : Fin n → ZMod p} (hw : w ≠ 0) : ‖csum A w‖ ^ 2 ≤ (p : ℝ) ^ n := by
  classical
  have hM := h.unit.pow s
  have hN : 0 < orderOf (D ^ s) := by
    refine orderOf_pos_iff.2 ?_
    have : IsOfFinOrder D := orderOf_pos_iff.1 (by rw [h.order]; have := period_pos (p := p) (n := n); omega)
    exact this.pow
  have hpow : ∀ k, csum A (w ᵥ* (D ^ s) ^ k) = csum A w := fun k => by
    induction k with
    | zero => rw [pow_zero, vecMul_one]
    | succ k ih => rw [pow_succ, ← vecMul_vecMul, csum_mul hM hA, ih]
  have hle : ∀ i j, i ≤ j → j < orderOf (D ^ s) → w ᵥ* (D ^ s) ^ i = w ᵥ* (D ^ s) ^ j → i = j := fun i j hij hj e => by
    by_contra hne
    have h1 : (D ^ s) ^ (j - i) ≠ 1 := pow_ne_one_of_lt_orderOf (by omega) (by omega)
    rw [← pow_mul] at h1
    have h2 := unit_sub h h1
    have h3 : (w ᵥ* (D ^ s) ^ i) ᵥ* (D ^ (s * (j - i)) - 1) = 0 := by
      rw [vecMul_sub, vecMul_one, vecMul_vecMul, pow_mul, ← pow_add, Nat.add_sub_cancel' hij, ← e, sub_self]
    have h4 : Function.Injective fun v => v ᵥ* (D ^ (s * (j - i)) - 1) := Matrix.vecMul_injective_iff_isUnit.2 h2
    have h5 : w ᵥ* (D ^ s) ^ i = 0 := h4 (by simpa using h3)
    have h6 : Function.Injective fun v => v ᵥ* (D ^ s) ^ i := Matrix.vecMul_injective_iff_isUnit.2 (hM.pow i)
    exact hw (h6 (by simpa using h5))
  have hinj : Set.InjOn (fun k => w ᵥ* (D ^ s) ^ k) (Finset.range (orderOf (D ^ s)) : Finset ℕ) := fun i hi j hj e => by
    rw [Finset.mem_coe, Finset.mem_range] at hi hj
    rcases le_total i j with hij | hij
    · exact hle i j hij hj e
    · exact (hle j i hij hi e.symm).symm
  have h1 : ∑ v ∈ (Finset.range (orderOf (D ^ s))).image (fun k => w ᵥ* (D ^ s) ^ k), ‖csum A v‖ ^ 2 ≤ ∑ v, ‖csum A v‖ ^ 2 :=
    Finset.sum_le_sum_of_subset_of_nonneg (Finset.subset_univ _) fun _ _ _ => by positivity
  rw [Finset.sum_image hinj, parseval] at h1
  simp only [hpow] at h1
  rw [Finset.sum_const, Finset.card_range, nsmul_eq_mul] at h1
  have h2 : (p : ℝ) ^ n * A.card ≤ (p : ℝ) ^ n * orderOf (D ^ s) := mul_le_mul_of_nonneg_left (by exact_mod_cast hc) (by positivity)
  have h3 : (0 : ℝ) < orderOf (D ^ s) := by exact_mod_cast hN
  have h4 := h1.trans h2
  rw [mul_comm] at h4
  exact le_of_mul_le_mul_right h4 h3

/-! ### Counting -/

theorem count_sum (B : Matrix (Fin d) (Fin n) (ZMod p)) (A : Finset (Fin n → ZMod p)) (W : Finset (Fin d → ZMod p)) [DecidableEq (Fin d → ZMod p)] :
    ∑ u, csum A (u ᵥ* B) * (starRingEnd ℂ) (csum W u) = (p : ℂ) ^ d * (A.filter fun x => B *ᵥ x ∈ W).card := by
  have e : ∀ u, csum A (u ᵥ* B) * (starRingEnd ℂ) (csum W u) = ∑ x ∈ A, ∑ b ∈ W, ZMod.stdAddChar (u ⬝ᵥ (B *ᵥ x - b)) := fun u => by
    rw [conj_csum, csum, Finset.sum_mul_sum]
    refine Finset.sum_congr rfl fun x _ => Finset.sum_congr rfl fun y _ => ?_
    rw [dotProduct_sub, sub_eq_add_neg, AddChar.map_add_eq_mul, dotProduct_mulVec]
  rw [Finset.sum_congr rfl fun w _ => e w, Finset.sum_comm]
  have e2 : ∀ x ∈ A, ∑ u, ∑ b ∈ W, (ZMod.stdAddChar (u ⬝ᵥ (B *ᵥ x - b)) : ℂ) = if B *ᵥ x ∈ W then (p : ℂ) ^ d else 0 := fun x _ => by
    rw [Finset.sum_comm, Finset.sum_congr rfl fun y _ => orth (B *ᵥ x - y)]
    simp only [sub_eq_zero]
    rw [Finset.sum_ite_eq W (B *ᵥ x)]
  rw [Finset.sum_congr rfl e2, ← Finset.sum_filter, Finset.sum_const, nsmul_eq_mul, mul_comm]

theorem count_bound (h : Cyclic D v0) (s : ℕ) {A : Finset (Fin n → ZMod p)} (hA : ∀ x ∈ A, D ^ s *ᵥ x ∈ A) (hc : A.card ≤ orderOf (D ^ s))
    {B : Matrix (Fin d) (Fin n) (ZMod p)} (hB : Function.Surjective fun x => B *ᵥ x) (W : Finset (Fin d → ZMod p)) [DecidableEq (Fin d → ZMod p)] :
    ((p : ℝ) ^ d * (A.filter fun x => B *ᵥ x ∈ W).card - A.card * W.card) ^ 2 * 4 ≤ (p : ℝ) ^ n * ((p : ℝ) ^ d) ^ 3 := by
  have hu : ∀ u : Fin d → ZMod p, u ≠ 0 → u ᵥ* B ≠ 0 := fun u hu hz => hu <| by
    funext i
    obtain ⟨x, hx⟩ := hB (Pi.single i 1)
    have h1 : u ⬝ᵥ (B *ᵥ x) = 0 := by rw [dotProduct_mulVec, hz, zero_dotProduct]
    simp only at hx
    rw [hx, dotProduct_single, mul_one] at h1
    exact h1
  have h1 := count_sum B A W
  rw [← Finset.add_sum_erase _ _ (Finset.mem_univ (0 : Fin d → ZMod p)), zero_vecMul, csum_zero, csum_zero, Complex.conj_natCast] at h1
  have h2 : (((p : ℝ) ^ d * (A.filter fun x => B *ᵥ x ∈ W).card - A.card * W.card : ℝ) : ℂ) =
      ∑ u ∈ Finset.univ.erase 0, csum A (u ᵥ* B) * (starRingEnd ℂ) (csum W u) := by
    push_cast
    rw [← h1]; ring
  have h3 : |(p : ℝ) ^ d * (A.filter fun x => B *ᵥ x ∈ W).card - A.card * W.card| ≤ ∑ u ∈ Finset.univ.erase (0 : Fin d → ZMod p), √((p : ℝ) ^ n) * ‖csum W u‖ := by
    rw [← Real.norm_eq_abs, ← Complex.norm_real, h2]
    refine (norm_sum_le _ _).trans (Finset.sum_le_sum fun u hm => ?_)
    rw [norm_mul, RCLike.norm_conj]
    exact mul_le_mul_of_nonneg_right (Real.le_sqrt_of_sq_le (csum_bound h s hA hc (hu u (Finset.ne_of_mem_erase hm)))) (norm_nonneg _)
  rw [← Finset.mul_sum] at h3
  have h4 : (∑ u ∈ Finset.univ.erase (0 : Fin d → ZMod p), ‖csum W u‖) ^ 2 ≤
      (Finset.univ.erase (0 : Fin d → ZMod p)).card * ∑ u ∈ Finset.univ.erase (0 : Fin d → ZMod p), ‖csum W u‖ ^ 2 := sq_sum_le_card_mul_sum_sq
  have h5 : ∑ u ∈ Finset.univ.erase (0 : Fin d → ZMod p), ‖csum W u‖ ^ 2 = (p : ℝ) ^ d * W.card - (W.card : ℝ) ^ 2 := by
    rw [← parseval, ← Finset.add_sum_erase _ _ (Finset.mem_univ (0 : Fin d → ZMod p)), csum_zero, Complex.norm_natCast]; ring
  have h6 : ((Finset.univ.erase (0 : Fin d → ZMod p)).card : ℝ) ≤ (p : ℝ) ^ d := by
    have : (Finset.univ.erase (0 : Fin d → ZMod p)).card ≤ p ^ d := by
      refine (Finset.card_le_univ _).trans ?_
      rw [Fintype.card_fun, ZMod.card, Fintype.card_fin]
    exact_mod_cast this
  rw [h5] at h4
  set E : ℝ := (p : ℝ) ^ d
  set X := ∑ u ∈ Finset.univ.erase (0 : Fin d → ZMod p), ‖csum W u‖
  have hE : 0 ≤ E := by positivity
  have h7 : E * W.card - (W.card : ℝ) ^ 2 ≤ E ^ 2 / 4 := by nlinarith [sq_nonneg ((W.card : ℝ) - E / 2)]
  have h8 : 0 ≤ E * W.card - (W.card : ℝ) ^ 2 := by rw [← h5]; positivity
  have h9 : X ^ 2 ≤ E * (E ^ 2 / 4) := h4.trans (mul_le_mul h6 h7 h8 hE)
  have h10 := pow_le_pow_left₀ (abs_nonneg _) h3 2
  rw [sq_abs, mul_pow, Real.sq_sqrt (by positivity)] at h10
  have h11 : (p : ℝ) ^ n * X ^ 2 ≤ (p : ℝ) ^ n * (E * (E ^ 2 / 4)) := mul_le_mul_of_nonneg_left h9 (by positivity)
  nlinarith

theorem order_pow (h : Cyclic D v0) (s : ℕ) : orderOf (D ^ s) * Nat.gcd s (p ^ n - 1) = p ^ n - 1 ∧ 0 < orderOf (D ^ s) := by
  have hT := period_pos (p := p) (n := n)
  have hf : IsOfFinOrder D := orderOf_pos_iff.1 (by rw [h.order]; omega)
  refine ⟨?_, orderOf_pos_iff.2 hf.pow⟩
  rw [hf.orderOf_pow, h.order, Nat.gcd_comm s]
  exact Nat.div_mul_cancel (Nat.gcd_dvd_left _ _)

theorem pow_inj (h : Cyclic D v0) (s : ℕ) : Set.InjOn (fun k : ℕ => (D ^ s) ^ k *ᵥ v0) (Finset.range (orderOf (D ^ s)) : Finset ℕ) := by
  have hle : ∀ i j, i ≤ j → j < orderOf (D ^ s) → (D ^ s) ^ i *ᵥ v0 = (D ^ s) ^ j *ᵥ v0 → i = j := fun i j hij hj e => by
    by_contra hne
    have h1 : (D ^ s) ^ (j - i) ≠ 1 := pow_ne_one_of_lt_orderOf (by omega) (by omega)
    rw [← pow_mul] at h1
    refine mulVec_ne (unit_sub h h1) (mulVec_ne ((h.unit.pow s).pow i) h.ne) ?_
    rw [sub_mulVec, one_mulVec, mulVec_mulVec, pow_mul, ← pow_add, Nat.sub_add_cancel hij, e, sub_self]
  intro i hi j hj e
  rw [Finset.mem_coe, Finset.mem_range] at hi hj
  rcases le_total i j with hij | hij
  · exact hle i j hij hj e
  · exact (hle j i hij hi e.symm).symm

theorem coset_arith {c N w E R q g : ℝ} (hq : q = E * R) (hE : 1 ≤ E) (hR : 1 ≤ R) (hq2 : 2 ≤ q) (hN : 0 < N) (hg : 0 ≤ g) (hNg : N * g = q - 1)
    (hx : (E * c - N * w) ^ 2 * 4 ≤ q * E ^ 3) : |c / N - w / E| ≤ g / √R := by
  have hE0 : 0 < E := by linarith
  have hR0 : 0 < R := by linarith
  have e : c / N - w / E = (E * c - N * w) / (N * E) := by field_simp
  rw [e]
  refine abs_le_of_sq_le_sq ?_ (by positivity)
  rw [div_pow, div_pow, Real.sq_sqrt hR0.le, div_le_div_iff₀ (by positivity) hR0]
  have h1 : (E * c - N * w) ^ 2 * R * 4 ≤ q ^ 2 * E ^ 2 := by
    have := mul_le_mul_of_nonneg_right hx hR0.le
    calc (E * c - N * w) ^ 2 * R * 4 = (E * c - N * w) ^ 2 * 4 * R := by ring
      _ ≤ q * E ^ 3 * R := this
      _ = q ^ 2 * E ^ 2 := by rw [hq]; ring
  have h2 : g ^ 2 * (N * E) ^ 2 = (q - 1) ^ 2 * E ^ 2 := by rw [← hNg]; ring
  have h3 : q ^ 2 ≤ (q - 1) ^ 2 * 4 := by nlinarith
  rw [h2]
  nlinarith [mul_le_mul_of_nonneg_right h3 (sq_nonneg E)]

/-- How often the vectors of every s-th step have components in a given set. -/
theorem coset_fraction (h : Cyclic D v0) (s : ℕ) {P : (Fin n → ZMod p) →ₗ[ZMod p] (Fin d → ZMod p)} (hP : Function.Surjective P) (hp3 : 2 < p)
    (W : Finset (Fin d → ZMod p)) [DecidableEq (Fin d → ZMod p)] :
    |(((Finset.range (orderOf (D ^ s))).filter fun k => P ((D ^ s) ^ k *ᵥ v0) ∈ W).card : ℝ) / orderOf (D ^ s) - W.card / (p : ℝ) ^ d| ≤
      (Nat.gcd s (p ^ n - 1) : ℝ) / √((p : ℝ) ^ (n - d)) := by
  classical
  have hp : (0 : ℝ) < p := by exact_mod_cast (Fact.out : p.Prime).pos
  have hp1 : (1 : ℝ) ≤ p := by exact_mod_cast (Fact.out : p.Prime).one_lt.le
  have hp2 : (2 : ℝ) ≤ p := by exact_mod_cast hp3.le
  obtain ⟨hN, hN0⟩ := order_pow h s
  have hT := period_pos (p := p) (n := n)
  have hdn : d ≤ n := by
    have := Fintype.card_le_of_surjective P hP
    rw [Fintype.card_fun, Fintype.card_fun, ZMod.card, Fintype.card_fin, Fintype.card_fin] at this
    exact (Nat.pow_le_pow_iff_right (Fact.out : p.Prime).one_lt).1 this
  have hNg : (orderOf (D ^ s) : ℝ) * (Nat.gcd s (p ^ n - 1) : ℝ) = (p : ℝ) ^ n - 1 := by
    have h1 : ((orderOf (D ^ s) * Nat.gcd s (p ^ n - 1) : ℕ) : ℝ) = ((p ^ n - 1 : ℕ) : ℝ) := by rw [hN]
    rw [Nat.cast_sub (Nat.one_le_pow _ _ (Fact.out : p.Prime).pos)] at h1
    push_cast at h1
    exact h1
  have hinj := pow_inj h s
  have hcard : ((Finset.range (orderOf (D ^ s))).image fun k => (D ^ s) ^ k *ᵥ v0).card = orderOf (D ^ s) := by
    rw [Finset.card_image_of_injOn hinj, Finset.card_range]
  have hB : ∀ x, LinearMap.toMatrix' P *ᵥ x = P x := fun x => LinearMap.toMatrix'_mulVec P x
  have key := count_bound h s (A := (Finset.range (orderOf (D ^ s))).image fun k => (D ^ s) ^ k *ᵥ v0) (fun x hx => by
    obtain ⟨k, -, rfl⟩ := Finset.mem_image.1 hx
    refine Finset.mem_image.2 ⟨(k + 1) % orderOf (D ^ s), Finset.mem_range.2 (Nat.mod_lt _ hN0), ?_⟩
    rw [pow_mod_orderOf, pow_succ', mulVec_mulVec]) hcard.le (B := LinearMap.toMatrix' P) (by simpa only [hB] using hP) W
  rw [hcard] at key
  simp only [hB] at key
  rw [Finset.filter_image, Finset.card_image_of_injOn (hinj.mono fun k hk => by
    rw [Finset.mem_coe, Finset.mem_filter] at hk
    exact Finset.mem_coe.2 hk.1)] at key
  refine coset_arith (q := (p : ℝ) ^ n) (by rw [← pow_add, Nat.add_sub_cancel' hdn]) (one_le_pow₀ hp1) (one_le_pow₀ hp1) ?_ (by exact_mod_cast hN0)
    (by positivity) hNg key
  exact hp2.trans (le_self_pow₀ hp1 (NeZero.ne n))

/-! ### Successive vectors -/

/-- A matrix that satisfies an equation of degree r has at most p^r different powers. -/
theorem order_le {M : Matrix (Fin n) (Fin n) (ZMod p)} {q : Polynomial (ZMod p)} (hq : q.Monic) (h0 : Polynomial.aeval M q = 0) :
    orderOf M ≤ p ^ q.natDegree := by
  have hdeg : ∀ k : ℕ, (Polynomial.X ^ k %ₘ q : Polynomial (ZMod p)) ∈ Polynomial.degreeLT (ZMod p) q.natDegree := fun k => by
    rw [Polynomial.mem_degreeLT]
    have := Polynomial.degree_modByMonic_lt (Polynomial.X ^ k) hq
    rwa [Polynomial.degree_eq_natDegree hq.ne_zero] at this
  have := Finset.card_le_card_of_injOn (s := Finset.range (orderOf M)) (t := (Finset.univ : Finset (Fin q.natDegree → ZMod p)))
    (fun k => Polynomial.degreeLTEquiv (ZMod p) q.natDegree ⟨Polynomial.X ^ k %ₘ q, hdeg k⟩) (fun _ _ => Finset.mem_coe.2 (Finset.mem_univ _)) fun i hi j hj e => by
      rw [Finset.mem_coe, Finset.mem_range] at hi hj
      have e1 := (Polynomial.degreeLTEquiv (ZMod p) q.natDegree).injective e
      have e2 : (Polynomial.X ^ i %ₘ q : Polynomial (ZMod p)) = Polynomial.X ^ j %ₘ q := congrArg Subtype.val e1
      have e3 := congrArg (Polynomial.aeval M) e2
      rw [Polynomial.aeval_modByMonic_eq_self_of_root h0, Polynomial.aeval_modByMonic_eq_self_of_root h0, map_pow, map_pow, Polynomial.aeval_X] at e3
      exact pow_injOn_Iio_orderOf hi hj e3
  rwa [Finset.card_range, Finset.card_univ, Fintype.card_fun, ZMod.card, Fintype.card_fin] at this

/-- A vector all of whose successors have the first component 0 is 0. -/
theorem eq_zero_of_first (h : Cyclic D v0) {z : Fin n → ZMod p} (hz : ∀ t, (D ^ t *ᵥ z) 0 = 0) : z = 0 := by
  by_contra hne
  obtain ⟨a, -, rfl⟩ := h.reach z hne
  obtain ⟨t, -, ht⟩ := (h.shift a).reach (Pi.single 0 1) (by simp)
  have := hz t
  rw [ht, Pi.single_eq_same] at this
  exact one_ne_zero this

/-- The first components of d ≤ n successive vectors of every s-th step, s < p, satisfy no linear relation. -/
theorem no_relation_steps (h : Cyclic D v0) {s : ℕ} (h0 : 0 < s) (hs : s < p) (hn : 2 ≤ n) (hd : d ≤ n) {o : ℕ} {g : Fin d → ZMod p}
    (hg : ∀ w, ∑ i, g i * (D ^ (o + s * i.val) *ᵥ w) 0 = 0) : g = 0 := by
  have hm : ∑ i, g i • (D ^ s) ^ i.val = 0 := by
    refine Matrix.ext_of_mulVec_single fun j => ?_
    rw [zero_mulVec]
    refine eq_zero_of_first h fun t => ?_
    obtain ⟨u, hu⟩ := (h.unit.pow o)
    have := hg ((↑u⁻¹ : Matrix (Fin n) (Fin n) (ZMod p)) *ᵥ (D ^ t *ᵥ Pi.single j 1))
    rw [← this, sum_mulVec, mulVec_sum, Finset.sum_apply]
    refine Finset.sum_congr rfl fun i _ => ?_
    rw [smul_mulVec, mulVec_smul, Pi.smul_apply, smul_eq_mul, add_comm o, pow_add, ← hu, mulVec_mulVec, mulVec_mulVec, mul_assoc, Units.mul_inv, mul_one,
      mulVec_mulVec, ← pow_mul, ← pow_add, ← pow_add, add_comm t]
  by_contra hne
  obtain ⟨j, hj⟩ := Function.ne_iff.1 hne
  let q : Polynomial (ZMod p) := ∑ i, Polynomial.C (g i) * Polynomial.X ^ i.val
  have hq0 : q ≠ 0 := fun hq => hj <| by
    have := congrArg (fun r => Polynomial.coeff r j.val) hq
    simp only [q, Polynomial.finsetSum_coeff, Polynomial.coeff_C_mul, Polynomial.coeff_X_pow, Polynomial.coeff_zero] at this
    rw [Finset.sum_eq_single j (fun b _ hb => by rw [if_neg fun e => hb (Fin.ext e.symm), mul_zero]) (by simp), if_pos rfl, mul_one] at this
    exact this
  have hqa : Polynomial.aeval (D ^ s) q = 0 := by
    rw [← hm]
    simp only [q, map_sum, map_mul, Polynomial.aeval_C, map_pow, Polynomial.aeval_X, Algebra.smul_def]
  have hqd : q.natDegree ≤ n - 1 := by
    refine Polynomial.natDegree_sum_le_of_forall_le _ _ fun i _ => ?_
    refine (Polynomial.natDegree_C_mul_X_pow_le _ _).trans ?_
    have := i.isLt
    omega
  have h1 := order_le (Polynomial.monic_mul_leadingCoeff_inv hq0) (M := D ^ s) (by rw [map_mul, hqa, zero_mul])
  rw [Polynomial.natDegree_mul_leadingCoeff_inv _ hq0] at h1
  have h2 : p ^ q.natDegree ≤ p ^ (n - 1) := Nat.pow_le_pow_right (Fact.out : p.Prime).pos hqd
  obtain ⟨h3, -⟩ := order_pow h s
  have h4 : Nat.gcd s (p ^ n - 1) ≤ p - 1 := (Nat.gcd_le_left _ h0).trans (by omega)
  have h5 := Nat.mul_le_mul (h1.trans h2) h4
  rw [h3, Nat.mul_sub, ← pow_succ, Nat.sub_add_cancel (Nat.one_le_iff_ne_zero.2 (NeZero.ne n)), mul_one] at h5
  have h6 : p ^ 1 ≤ p ^ (n - 1) := Nat.pow_le_pow_right (Fact.out : p.Prime).pos (by omega)
  have h7 : p ^ (n - 1) < p ^ n := Nat.pow_lt_pow_right (Fact.out : p.Prime).one_lt (by omega)
  rw [pow_one] at h6
  omega

/-! ### The engines -/

open MRG Props PeriodLaw

/-- Leapfrog streams of an engine are nearly independent if there is no linear relation between the numbers that far apart. -/
theorem leapfrog_every {K : Kind} {l : List Int} (hl : l ∈ fullPeriod K) (e : {e : MRG K.order // InRange K.modulus e}) (hu : Uses e.1 l) (hz : NonZero e.1)
    (s : ℕ) {d : ℕ} {o : Fin d → ℕ} {es : Fin d → {e : MRG K.order // InRange K.modulus e}} (hE : ∀ i, Leapfrog (mrgGen K).call e (es i) s (o i))
    (hno : ∀ g : Fin d → ℤ, (∀ k, (K.modulus : ℤ) ∣ ∑ i, g i * nth (call K.modulus) e.1 (k + o i)) → ∀ i, (K.modulus : ℤ) ∣ g i) :
    StreamsNearly (mrgGen K) es ((K.modulus ^ K.order - 1) / Nat.gcd s (K.modulus ^ K.order - 1))
      ((Nat.gcd s (K.modulus ^ K.order - 1) : ℝ) / √((K.modulus : ℝ) ^ (K.order - d))) := by
  classical
  have h2 := two_lt K
  have hcyc := (cyclic hl e.2 hu hz).shift 1
  generalize hC : comp K.modulus (params l : Fin K.order → Int) = C at *
  have hx : ∀ i k, ((nth (call K.modulus) e.1 (k + o i) : Int) : ZMod K.modulus) = proj C o (C ^ k *ᵥ (C ^ 1 *ᵥ castV K.modulus e.1.r)) i := fun i k => by
    rw [nth_cast e.2 hu, hC, proj_apply, mulVec_mulVec, mulVec_mulVec, ← pow_add, ← pow_add]
    congr 3
    omega
  have hs : Function.Surjective (proj C o) := by
    refine proj_surjective fun g hg => funext fun i => ?_
    have := hno (fun i => ((g i).val : ℤ)) (fun k => ?_) i
    · rw [← ZMod.intCast_zmod_eq_zero_iff_dvd] at this
      simpa using this
    · rw [← ZMod.intCast_zmod_eq_zero_iff_dvd]
      push_cast
      rw [← hg (C ^ k *ᵥ (C ^ 1 *ᵥ castV K.modulus e.1.r))]
      refine Finset.sum_congr rfl fun i _ => ?_
      rw [hx, proj_apply, ZMod.natCast_zmod_val]
  obtain ⟨hN, hN0⟩ := order_pow hcyc s
  have hN' : (K.modulus ^ K.order - 1) / Nat.gcd s (K.modulus ^ K.order - 1) = orderOf (C ^ s) := by
    have hT := period_pos (p := K.modulus) (n := K.order)
    exact Nat.div_eq_of_eq_mul_left (Nat.gcd_pos_of_pos_right _ (by omega)) hN.symm
  rw [hN']
  refine ⟨hN0, fun W hW => ?_⟩
  have hmax : ∀ v ∈ W, ∀ i, v i < K.modulus := fun v hv i => by
    have : v i ≤ K.modulus - 1 := (hW v hv i).2
    omega
  let cst : (Fin d → ℕ) → Fin d → ZMod K.modulus := fun v i => (v i : ZMod K.modulus)
  have hinj : ∀ v w : Fin d → ℕ, (∀ i, v i < K.modulus) → (∀ i, w i < K.modulus) → cst v = cst w → v = w := fun v w hv hw e => funext fun i => by
    have := congrFun e i
    simp only [cst, ZMod.natCast_eq_natCast_iff', Nat.mod_eq_of_lt (hv i), Nat.mod_eq_of_lt (hw i)] at this
    exact this
  have key := coset_fraction hcyc s hs h2 (W.image cst)
  rw [Finset.card_image_of_injOn fun v hv w hw e => hinj v w (hmax v (Finset.mem_coe.1 hv)) (hmax w (Finset.mem_coe.1 hw)) e] at key
  refine le_trans (le_of_eq ?_) key
  have hM : ((mrgGen K).max - (mrgGen K).min + 1 : ℕ) = K.modulus := by
    show K.modulus - 1 - 0 + 1 = K.modulus
    omega
  rw [hM]
  congr! 6 with k _
  have hcast : proj C o ((C ^ s) ^ k *ᵥ (C ^ 1 *ᵥ castV K.modulus e.1.r)) = cst fun i => nth (mrgGen K).call (es i) k := funext fun i => by
    rw [← pow_mul, mul_comm, ← hx, ← gen_cast e, ← hE i k]
  rw [hcast]
  constructor
  · intro hk
    exact Finset.mem_image_of_mem _ hk
  · intro hk
    obtain ⟨v, hv, e⟩ := Finset.mem_image.1 hk
    rw [← hinj v _ (hmax v hv) (fun i => gen_lt _ _) e]
    exact hv

/-- At most n numbers that are s calls apart, s < m, satisfy no linear relation. -/
theorem no_relation_leap {K : Kind} {l : List Int} (hl : l ∈ fullPeriod K) (e : {e : MRG K.order // InRange K.modulus e}) (hu : Uses e.1 l) (hz : NonZero e.1)
    {s : ℕ} (h0 : 0 < s) (hs : s < K.modulus) {d : ℕ} (hd : d ≤ K.order) (o : ℕ) (g : Fin d → ℤ)
    (hg : ∀ k, (K.modulus : ℤ) ∣ ∑ i, g i * nth (call K.modulus) e.1 (k + (o + s * i.val))) : ∀ i, (K.modulus : ℤ) ∣ g i := by
  have hcyc := (cyclic hl e.2 hu hz).shift 1
  have hrel := hcyc.relation (L := fun i : Fin d => o + s * i.val) (g := fun i => (g i : ZMod K.modulus)) (fun k => by
    have := hg k
    rw [← ZMod.intCast_zmod_eq_zero_iff_dvd] at this
    push_cast at this
    rw [← this]
    refine Finset.sum_congr rfl fun i _ => ?_
    rw [nth_cast e.2 hu, mulVec_mulVec, ← pow_add])
  have := no_relation_steps hcyc h0 hs (by cases K <;> decide) hd hrel
  intro i
  exact (ZMod.intCast_zmod_eq_zero_iff_dvd _ _).1 (congrFun this i)

end Trng.Cosets
