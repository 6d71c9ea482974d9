import Verif.Proofs.Correlated
import Verif.Spec.Correlated
import Verif.Props.Normal
import Mathlib.Probability.Distributions.Gaussian.Multivariate

/-! The matrix and the law of the vectors `correlated_normal_dist` gives. -/
namespace Trng.Correlated
open XR Discrete MeasureTheory ProbabilityTheory Spec

theorem flat_eq {d : Nat} (V : Matrix (Fin d) (Fin d) ℝ) : flat V = flatN d (extend V) := by
  apply List.ext_getElem
  · simp [flat, flatN]
  · intro q h1 h2
    have hq : q < d * d := by simpa [flat] using h1
    have hd : 0 < d := by rcases Nat.eq_zero_or_pos d with rfl | h <;> omega
    simp only [flat, flatN, List.getElem_ofFn, List.getElem_map, List.getElem_range]
    rw [extend, dif_pos ⟨Nat.div_lt_of_lt_mul hq, Nat.mod_lt _ hd⟩]
    rfl

theorem flatN_congr {d : Nat} {H H' : ℕ → ℕ → ℝ} (h : ∀ i < d, ∀ j < d, H i j = H' i j) : flatN d H = flatN d H' := by
  unfold flatN
  apply List.map_congr_left
  intro q hq
  rw [List.mem_range] at hq
  have hd : 0 < d := by rcases Nat.eq_zero_or_pos d with rfl | h <;> omega
  rw [h _ (Nat.div_lt_of_lt_mul hq) _ (Nat.mod_lt _ hd)]

theorem ofRange_flat {d : Nat} {V : Matrix (Fin d) (Fin d) ℝ} (hV : V.PosDef) :
    ∃ H : Matrix (Fin d) (Fin d) ℝ, CholeskyFactor V H ∧ Param.ofRange (flat V) = some ⟨flat H, d⟩ := by
  obtain ⟨H, e, hd⟩ := rows_done (extend_posForm hV) (extend_symm hV) d le_rfl
  have full : ∀ r < d, ∀ c ≤ r, ∑ j ∈ Finset.range d, H r j * H c j = extend V r c := by
    intro r hr c hc
    rw [← hd.prod r hr c hc]
    symm
    apply Finset.sum_subset (Finset.range_subset_range.2 (by omega))
    intro j hj hj'
    rw [Finset.mem_range] at hj hj'
    rw [hd.zero c (by omega) j (by omega) hj, mul_zero]
  refine ⟨Matrix.of fun i j => H i j, ⟨fun i j h => hd.zero i i.2 j h j.2, fun i => hd.pos i i.2, ?_⟩, ?_⟩
  · ext i j
    rw [Matrix.mul_apply]
    simp only [Matrix.transpose_apply, Matrix.of_apply]
    rw [← extend_apply V i j]
    rcases le_total (j : ℕ) i with h | h
    · rw [← full i i.2 j h, Finset.sum_range]
    · rw [extend_symm hV, ← full j j.2 i h, Finset.sum_range]
      exact Finset.sum_congr rfl fun k _ => mul_comm _ _
  · have hl : (flat V).length = d * d := by simp [flat]
    rw [Param.ofRange, hl, Nat.sqrt_eq, List.take_of_length_le (by rw [hl]), flat_eq V, e, Option.map_some, flat_eq]
    congr 2
    exact flatN_congr fun i hi j hj => by rw [extend, dif_pos ⟨hi, hj⟩]; rfl

theorem sum_range_mulVec {d : Nat} {V H : Matrix (Fin d) (Fin d) ℝ} (hH : CholeskyFactor V H) (z : ℕ → ℝ) (i : Fin d) :
    ∑ j ∈ Finset.range ((i : ℕ) + 1), extend H i j * z j = (H.mulVec fun j => z j) i := by
  rw [Matrix.mulVec, dotProduct]
  have e : ∑ j : Fin d, H i j * z j = ∑ j ∈ Finset.range d, extend H i j * z j := by
    rw [Finset.sum_range]
    exact Finset.sum_congr rfl fun j _ => by rw [extend_apply]
  rw [e]
  apply Finset.sum_subset (Finset.range_subset_range.2 (by have := i.2; omega))
  intro j hj hj'
  rw [Finset.mem_range] at hj hj'
  have : extend H i j = H i ⟨j, hj⟩ := by rw [extend, dif_pos ⟨i.2, hj⟩]
  rw [this, hH.lower i ⟨j, hj⟩ (by rw [Fin.lt_def]; change (i : ℕ) < j; omega), zero_mul]

theorem draws_flat {d : Nat} [NeZero d] {V H : Matrix (Fin d) (Fin d) ℝ} (hH : CholeskyFactor V H) (inv : XR → XR)
    (u : ℕ → XR) (z : ℕ → ℝ) (n : Nat) (hu : ∀ k < n, inv (u k) = fin (z k)) :
    ∃ D', (Dist.ofParam ⟨flat H, d⟩).draws inv ((List.range n).map u)
      = some ((List.range n).map fun k => fin ((H.mulVec fun j => z (k / d * d + j)) (Fin.ofNat d k)), D') ∧
      D'.normal.length = n % d := by
  have hd : 0 < d := Nat.pos_of_ne_zero (NeZero.ne d)
  refine ⟨⟨⟨flatN d (extend H), d⟩, (List.range (n % d)).map fun j => fin (z (n / d * d + j))⟩, ?_, ?_⟩
  · rw [flat_eq, draws_flatN hd inv (extend H) u z n hu]
    congr 2
    apply List.map_congr_left
    intro k _
    rw [← sum_range_mulVec hH (fun j => z (k / d * d + j)) (Fin.ofNat d k)]
    rfl
  · simp

/-! ### The law -/

theorem PhiInv_le_iff {u : ℝ} (h0 : 0 < u) (h1 : u < 1) (x : ℝ) : PhiInv u ≤ x ↔ u ≤ PhiR x := by
  rw [← strictMono_PhiR.le_iff_le, PhiR_PhiInv h0 h1]

theorem measurable_PhiInv : Measurable PhiInv := by
  apply measurable_of_Iic
  intro x
  have : PhiInv ⁻¹' Set.Iic x = (Set.Ioo 0 1 ∩ Set.Iic (PhiR x)) ∪ ((Set.Ioo 0 1)ᶜ ∩ {_u | (0 : ℝ) ≤ x}) := by
    ext u
    by_cases h : 0 < u ∧ u < 1
    · simp [h, PhiInv_le_iff h.1 h.2]
    · have e : PhiInv u = 0 := by rw [PhiInv, dif_neg h]
      have h' : ¬ (u ∈ Set.Ioo (0 : ℝ) 1) := h
      simp only [Set.mem_preimage, e, Set.mem_Iic, Set.mem_union, Set.mem_inter_iff, h', false_and, false_or,
        Set.mem_compl_iff, not_false_eq_true, true_and]
      rfl
  rw [this]
  exact (measurableSet_Ioo.inter measurableSet_Iic).union (measurableSet_Ioo.compl.inter (MeasurableSet.const _))

theorem gaussian_Iic (x : ℝ) : gaussianReal 0 1 (Set.Iic x) = ENNReal.ofReal (PhiR x) := by
  rw [gaussianReal_apply_eq_integral 0 one_ne_zero, ← stdNormal_eq, stdNormal]
  congr 2
  funext t
  rw [gaussianPDFReal]
  simp only [NNReal.coe_one, mul_one, sub_zero]
  rw [div_eq_mul_inv _ (Real.sqrt _)]; ring

theorem map_PhiInv : (volume.restrict (Set.Ioo (0 : ℝ) 1)).map PhiInv = gaussianReal 0 1 := by
  have : IsFiniteMeasure (volume.restrict (Set.Ioo (0 : ℝ) 1)) := ⟨by simp⟩
  have : IsFiniteMeasure ((volume.restrict (Set.Ioo (0 : ℝ) 1)).map PhiInv) := Measure.isFiniteMeasure_map _ _
  apply Measure.ext_of_Iic
  intro x
  rw [gaussian_Iic, Measure.map_apply measurable_PhiInv measurableSet_Iic,
    Measure.restrict_apply (measurable_PhiInv measurableSet_Iic)]
  have : PhiInv ⁻¹' Set.Iic x ∩ Set.Ioo 0 1 = Set.Ioc 0 (PhiR x) := by
    ext u
    constructor
    · rintro ⟨a, b⟩
      exact ⟨b.1, (PhiInv_le_iff b.1 b.2 x).1 a⟩
    · rintro ⟨a, b⟩
      have h1 : u < 1 := b.trans_lt (PhiR_lt_one x)
      exact ⟨(PhiInv_le_iff a h1 x).2 b, a, h1⟩
  rw [this, Real.volume_Ioc, sub_zero]

/-- The vector of normal variates belonging to a vector of deviates. -/
noncomputable def normals {d : Nat} (u : Fin d → ℝ) : Fin d → ℝ := fun i => PhiInv (u i)

theorem map_normals (d : Nat) :
    (Measure.pi fun _ : Fin d => volume.restrict (Set.Ioo (0 : ℝ) 1)).map normals
      = Measure.pi fun _ : Fin d => gaussianReal 0 1 := by
  have h : ∀ i : Fin d, SigmaFinite ((volume.restrict (Set.Ioo (0 : ℝ) 1)).map PhiInv) := by
    intro i; rw [map_PhiInv]; infer_instance
  have := Measure.pi_map_pi (μ := fun _ : Fin d => volume.restrict (Set.Ioo (0 : ℝ) 1)) (f := fun _ => PhiInv)
    (hμ := h) (fun i => measurable_PhiInv.aemeasurable)
  simp only [map_PhiInv] at this
  exact this

open WithLp in
theorem map_mulVec {d : Nat} {V H : Matrix (Fin d) (Fin d) ℝ} (hV : V.PosDef) (hH : CholeskyFactor V H) :
    (Measure.pi fun _ : Fin d => gaussianReal 0 1).map (fun z => toLp 2 (H.mulVec z))
      = multivariateGaussian 0 V := by
  have e : (fun z : Fin d → ℝ => toLp 2 (H.mulVec z))
      = (Matrix.toEuclideanCLM (𝕜 := ℝ) H) ∘ (toLp 2 : (Fin d → ℝ) → EuclideanSpace ℝ (Fin d)) := by
    funext z; rfl
  rw [e, ← Measure.map_map (by fun_prop) (by fun_prop), map_pi_eq_stdGaussian]
  apply Measure.ext_of_charFun
  ext t
  rw [charFun_multivariateGaussian hV.posSemidef, charFun_apply, integral_map (by fun_prop) (by fun_prop)]
  have h1 : ∀ x : EuclideanSpace ℝ (Fin d), inner ℝ (Matrix.toEuclideanCLM (𝕜 := ℝ) H x) t
      = inner ℝ x (Matrix.toEuclideanCLM (𝕜 := ℝ) H.transpose t) := by
    intro x
    rw [real_inner_comm, Matrix.inner_toEuclideanCLM, Matrix.inner_toEuclideanCLM, Matrix.dotProduct_mulVec,
      dotProduct_comm, ← Matrix.mulVec_transpose]
  simp only [h1]
  rw [← charFun_apply, charFun_stdGaussian]
  congr 1
  have h2 : ‖Matrix.toEuclideanCLM (𝕜 := ℝ) H.transpose t‖ ^ 2 = t.ofLp ⬝ᵥ V.mulVec t.ofLp := by
    have h3 : Matrix.toEuclideanCLM (𝕜 := ℝ) H (Matrix.toEuclideanCLM (𝕜 := ℝ) H.transpose t)
        = Matrix.toEuclideanCLM (𝕜 := ℝ) V t := by
      rw [← hH.prod, map_mul]; rfl
    rw [← real_inner_self_eq_norm_sq, ← h1, h3, real_inner_comm, Matrix.inner_toEuclideanCLM]
  rw [← h2, inner_zero_right]
  push_cast
  ring

end Trng.Correlated
