import Verif.Proofs.CorrelatedLaw

/-! C64: `correlated_normal_dist`. -/
namespace Trng.Correlated
open XR Discrete MeasureTheory ProbabilityTheory Spec

/-- C64: for every dimension and every symmetric positive definite matrix the constructor ends without undefined behaviour
and without a NaN, and what it leaves in place of the matrix is the matrix's Cholesky factor. -/
theorem C64_factorisation {d : Nat} {V : Matrix (Fin d) (Fin d) ℝ} (hV : V.PosDef) :
    ∃ H : Matrix (Fin d) (Fin d) ℝ, CholeskyFactor V H ∧ Param.ofRange (flat V) = some ⟨flat H, d⟩ := ofRange_flat hV

/-- C64: the results of any number of calls.  Call number `k` (counting from 0) gives component `k mod d` of the factor
times the vector of the normal variates number `d ⌊k/d⌋, d ⌊k/d⌋ + 1, …`; after `n` calls `n mod d` variates are stored, so
never as many as `d`; after `reset` the object is as new. -/
theorem C64_vectors {d : Nat} [NeZero d] {V : Matrix (Fin d) (Fin d) ℝ} (hV : V.PosDef) :
    ∃ (H : Matrix (Fin d) (Fin d) ℝ) (P : Param), CholeskyFactor V H ∧ Param.ofRange (flat V) = some P ∧
      ∀ (inv : XR → XR) (u : ℕ → XR) (z : ℕ → ℝ) (n : Nat), (∀ k < n, inv (u k) = fin (z k)) →
        ∃ D', (Dist.ofParam P).draws inv ((List.range n).map u)
            = some ((List.range n).map fun k => fin ((H.mulVec fun j => z (k / d * d + j)) (Fin.ofNat d k)), D') ∧
          D'.normal.length = n % d ∧ D'.normal.length < d ∧ D'.reset = Dist.ofParam P := by
  obtain ⟨H, hH, e⟩ := ofRange_flat hV
  refine ⟨H, _, hH, e, fun inv u z n hu => ?_⟩
  have hd : 0 < d := Nat.pos_of_ne_zero (NeZero.ne d)
  refine ⟨⟨⟨flat H, d⟩, (List.range (n % d)).map fun j => fin (z (n / d * d + j))⟩, ?_, by simp, ?_, rfl⟩
  · obtain ⟨D', e', _⟩ := draws_flat hH inv u z n hu
    have := draws_flatN hd inv (extend H) u z n hu
    rw [← flat_eq] at this
    rw [e']
    rw [e'] at this
    simp only [Option.some.injEq, Prod.mk.injEq] at this ⊢
    exact ⟨trivial, this.2⟩
  · simpa using Nat.mod_lt n hd

open WithLp in
/-- C64: with independent deviates, uniform on (0,1), and an exact inverse normal distribution function, `d` calls give a
vector whose law is the multivariate normal distribution with mean 0 and covariance matrix `V`, and leave the object ready
for the next vector. -/
theorem C64_law {d : Nat} [NeZero d] {V : Matrix (Fin d) (Fin d) ℝ} (hV : V.PosDef) {inv : XR → XR}
    (hinv : InvertsNormal inv 0) :
    ∃ (P : Param) (y : (Fin d → ℝ) → Fin d → ℝ), Param.ofRange (flat V) = some P ∧
      (∀ u : Fin d → ℝ, (∀ i, u i ∈ Set.Ioo (0 : ℝ) 1) →
        (Dist.ofParam P).draws inv (List.ofFn fun i => fin (u i)) = some (List.ofFn fun i => fin (y u i), Dist.ofParam P)) ∧
      (Measure.pi fun _ : Fin d => volume.restrict (Set.Ioo (0 : ℝ) 1)).map (fun u => toLp 2 (y u))
        = multivariateGaussian 0 V := by
  obtain ⟨H, hH, e⟩ := ofRange_flat hV
  have hd : 0 < d := Nat.pos_of_ne_zero (NeZero.ne d)
  refine ⟨_, fun u => H.mulVec (normals u), e, ?_, ?_⟩
  · intro u hu
    have hz : ∀ i, inv (fin (u i)) = fin (PhiInv (u i)) := by
      intro i
      obtain ⟨y, hy, hy'⟩ := hinv (u i) (hu i).1 (hu i).2
      rw [stdNormal_eq] at hy'
      have : PhiR y = u i := by
        have := abs_nonpos_iff.1 hy'
        linarith
      rw [hy, ← this, PhiInv_PhiR]
    have h := draws_flatN hd inv (extend H) (fun k => if h : k < d then fin (u ⟨k, h⟩) else 0)
      (fun k => if h : k < d then PhiInv (u ⟨k, h⟩) else 0) d (fun k hk => by simp only [dif_pos hk]; exact hz _)
    rw [← flat_eq, Nat.mod_self, List.range_zero, List.map_nil] at h
    have e1 : (List.range d).map (fun k => if h : k < d then fin (u ⟨k, h⟩) else 0) = List.ofFn fun i => fin (u i) := by
      apply List.ext_getElem
      · simp
      · intro q h1 h2
        have hq : q < d := by simpa using h1
        simp [hq]
    rw [e1] at h
    rw [h]
    congr 2
    apply List.ext_getElem
    · simp
    · intro q h1 h2
      have hq : q < d := by simpa using h1
      simp only [List.getElem_map, List.getElem_range, List.getElem_ofFn, Nat.mod_eq_of_lt hq, Nat.div_eq_of_lt hq, zero_mul,
        zero_add]
      congr 1
      have := sum_range_mulVec hH (fun k => if h : k < d then PhiInv (u ⟨k, h⟩) else 0) ⟨q, hq⟩
      simp only at this
      rw [this]
      congr 1
      funext j
      simp [normals]
  · rw [← map_mulVec hV hH, ← map_normals, Measure.map_map]
    · rfl
    · have : (fun z : Fin d → ℝ => toLp 2 (H.mulVec z))
          = (Matrix.toEuclideanCLM (𝕜 := ℝ) H) ∘ (toLp 2 : (Fin d → ℝ) → EuclideanSpace ℝ (Fin d)) := by
        funext z; rfl
      rw [this]
      fun_prop
    · exact measurable_pi_lambda _ fun i => measurable_PhiInv.comp (measurable_pi_apply i)

/-- The 2×2 covariance matrix with unit variances and correlation 1/2. -/
noncomputable def half : Matrix (Fin 2) (Fin 2) ℝ := !![1, 1 / 2; 1 / 2, 1]

theorem half_posDef : half.PosDef := by
  refine Matrix.PosDef.of_dotProduct_mulVec_pos ?_ ?_
  · ext i j; fin_cases i <;> fin_cases j <;> simp [half]
  · intro x hx
    have : x 0 ≠ 0 ∨ x 1 ≠ 0 := by
      by_contra h
      push Not at h
      exact hx (by funext i; fin_cases i <;> simp [h.1, h.2])
    simp only [half, star_trivial, dotProduct, Matrix.mulVec, Fin.sum_univ_two, Matrix.of_apply, Matrix.cons_val_zero,
      Matrix.cons_val_one]
    rcases this with h | h
    · nlinarith [mul_self_pos.2 h, mul_self_nonneg (x 0 + 2 * x 1)]
    · nlinarith [mul_self_pos.2 h, mul_self_nonneg (2 * x 0 + x 1)]

/-- The hypotheses hold for a non-diagonal matrix and an inverse normal distribution function. -/
example : half.PosDef ∧ half 0 1 ≠ 0 ∧ InvertsNormal exactInv 0 := by
  refine ⟨half_posDef, by simp [half], fun u h0 h1 => ⟨PhiInv u, exactInv_fin h0 h1, ?_⟩⟩
  rw [stdNormal_eq, PhiR_PhiInv h0 h1, sub_self, abs_zero]

/-- C64, the call with a parameter object: it makes a new object each time and therefore always gives the first
component, so that calls in this form never give a correlated vector. -/
theorem C64_param_call_wrong {d : Nat} [NeZero d] {V : Matrix (Fin d) (Fin d) ℝ} (hV : V.PosDef) :
    ∃ P, Param.ofRange (flat V) = some P ∧ ∀ (inv : XR → XR) (u : XR) (z : ℝ), inv u = fin z →
      drawWith inv P u = some (fin (Real.sqrt (V 0 0) * z)) := by
  obtain ⟨H, hH, e⟩ := ofRange_flat hV
  refine ⟨_, e, fun inv u z hz => ?_⟩
  have hd : 0 < d := Nat.pos_of_ne_zero (NeZero.ne d)
  have h := draw_flatN inv (extend H) (fun _ => z) hd (u := u) hz
  have h00 : extend H 0 0 = Real.sqrt (V 0 0) := by
    have h1 := extend_apply H 0 0
    have h2 : V 0 0 = H 0 0 * H 0 0 := by
      rw [← hH.prod, Matrix.mul_apply, Finset.sum_eq_single 0]
      · rfl
      · intro j _ hj
        rw [hH.lower 0 j (Fin.pos_iff_ne_zero.2 hj), zero_mul]
      · simp
    rw [h2, Real.sqrt_mul_self (hH.diag 0).le]
    simpa using h1
  rw [← flat_eq] at h
  simp only [List.range_zero, List.map_nil] at h
  rw [drawWith, Dist.ofParam, h, Option.map_some, Finset.sum_range_one, h00]

/-- C64, changing the parameters within a vector: the stored variates stay, and the next call reads outside the
new matrix. -/
theorem C64_param_wrong : ∃ P₁ P₂ : Param, Param.ofRange (flat (1 : Matrix (Fin 2) (Fin 2) ℝ)) = some P₁ ∧
    Param.ofRange (flat (1 : Matrix (Fin 1) (Fin 1) ℝ)) = some P₂ ∧
    ∀ (inv : XR → XR) (u v : XR) (z : ℝ), inv u = fin z →
      ∃ y D, (Dist.ofParam P₁).draw inv u = some (y, D) ∧ (D.setParam P₂).draw inv v = none := by
  obtain ⟨H₁, h₁, e₁⟩ := ofRange_flat (V := (1 : Matrix (Fin 2) (Fin 2) ℝ)) Matrix.PosDef.one
  obtain ⟨H₂, h₂, e₂⟩ := ofRange_flat (V := (1 : Matrix (Fin 1) (Fin 1) ℝ)) Matrix.PosDef.one
  refine ⟨_, _, e₁, e₂, fun inv u v z hz => ?_⟩
  have h := draw_flatN inv (extend H₁) (fun _ => z) (show 0 < 2 by norm_num) (u := u) hz
  rw [← flat_eq] at h
  refine ⟨_, _, h, ?_⟩
  simp [Dist.setParam, Dist.draw, Param.times, timesLoop, flat]

/-- A default constructed parameter object (dimension 0) has no matrix to read: the first call is undefined. -/
theorem C64_default_wrong (inv : XR → XR) (u : XR) : (Dist.ofParam Param.default).draw inv u = none := by
  simp [Dist.ofParam, Param.default, Dist.draw, Param.times, timesLoop]

/-- A covariance matrix that is only positive semi-definite can make the factorisation divide 0 by 0: the second component
is then NaN. -/
theorem C64_semidefinite_wrong : (Matrix.diagonal ![0, 1] : Matrix (Fin 2) (Fin 2) ℝ).PosSemidef ∧
    ∃ P, Param.ofRange (flat (Matrix.diagonal ![0, 1] : Matrix (Fin 2) (Fin 2) ℝ)) = some P ∧
      ∀ (inv : XR → XR) (u v : XR) (a b : ℝ), inv u = fin a → inv v = fin b →
        ∃ D, (Dist.ofParam P).draws inv [u, v] = some ([fin 0, nan], D) := by
  constructor
  · apply Matrix.PosSemidef.diagonal
    intro i; fin_cases i <;> simp
  · have e : flat (Matrix.diagonal ![0, 1] : Matrix (Fin 2) (Fin 2) ℝ) = [fin 0, fin 0, fin 0, fin 1] := by
      rw [flat]
      simp [List.ofFn_succ, Fin.divNat, Fin.modNat, Matrix.diagonal]
    refine ⟨⟨[fin 0, fin 0, nan, nan], 2⟩, ?_, ?_⟩
    · rw [e, Param.ofRange]
      have h4 : Nat.sqrt [fin 0, fin 0, fin 0, fin 1].length = 2 := Nat.sqrt_eq 2
      have s0 : XR.sqrt (fin 0) = fin 0 := by rw [sqrt_fin le_rfl, Real.sqrt_zero]
      have d0 : fin 0 / fin 0 = nan := by rw [fin_div', if_pos rfl, infSign]; simp
      have n1 : ∀ a : ℝ, fin a + nan = nan := fun _ => rfl
      have n2 : ∀ a : ℝ, fin a - nan = nan := fun _ => rfl
      have n4 : XR.sqrt nan = nan := rfl
      rw [h4]
      simp [rows, row, eliminate, dot, clear, set?, s0, d0, n1, n2, n4]
    · intro inv u v a b hu hv
      have z0 : (0 : XR) = fin 0 := by rw [ofNat_fin]; simp
      have n5 : ∀ x : ℝ, nan * fin x = nan := fun _ => rfl
      refine ⟨⟨⟨[fin 0, fin 0, nan, nan], 2⟩, []⟩, ?_⟩
      simp [Dist.draws, Dist.ofParam, Dist.draw, Param.times, timesLoop, hu, hv, z0, n5, fin_mul, fin_add]

end Trng.Correlated
