import Verif.Proofs.InvGammaEnds
import Verif.Spec.GammaDists

/-! Property C81: the inverse of the incomplete Gamma function. -/
namespace Trng.Props
open XR Special Set InvGamma Filter Topology

/-! ### C81 -/

/-- C81: for `a > 0` and `0 < p < 1`, `inv_GammaP(a, p)` is a positive number, whatever numbers `GammaP` returns. -/
theorem C81_range {L : Limits} {GP : XR → XR → XR} {a p : ℝ} (ha : 0 < a) (hp : 0 < p) (hp1 : p < 1) (he : 0 ≤ L.epsilon)
    (hGP : ∀ x : ℝ, 0 < x → ∃ y : ℝ, GP (fin a) (fin x) = fin y) : ∃ y : ℝ, invGammaP L GP (fin a) (fin p) = fin y ∧ 0 < y := by
  choose F hF using hGP
  obtain ⟨x, -, hx, -, m, -, e, -⟩ := inv_seq L (F := fun x => if h : 0 < x then F x h else 0) ha hp hp1 he (fun x hx => by simp only [dif_pos hx]; exact hF x hx)
  exact ⟨_, e, seq_pos _ a p hx m⟩

/-- C81 for `a ≥ 1`, with an exact `GammaP`: however many turns the iteration takes, the probability of the result lies between `p`
and the probability of the initial guess; the iteration never leads away from the solution and never oscillates.  Missing:
`a < 1`. -/
theorem C81_monotone_partial {L : Limits} {GP : XR → XR → XR} {a p : ℝ} (ha : 1 ≤ a) (hp : 0 < p) (hp1 : p < 1) (he : 0 ≤ L.epsilon)
    (hGP : Spec.IsGammaP GP a) :
    ∃ x y : ℝ, invGammaGuess (fin a) (fin p) = fin x ∧ invGammaP L GP (fin a) (fin p) = fin y ∧ 0 < y ∧
      (p ≤ Spec.regGamma a x → p ≤ Spec.regGamma a y ∧ Spec.regGamma a y ≤ Spec.regGamma a x) ∧
      (Spec.regGamma a x ≤ p → Spec.regGamma a x ≤ Spec.regGamma a y ∧ Spec.regGamma a y ≤ p) := by
  have ha0 : 0 < a := by linarith
  obtain ⟨r, hr, e⟩ := root ha0 hp hp1
  obtain ⟨x, eg, hx, -, m, -, ei, -⟩ := inv_seq L ha0 hp hp1 he (fun x hx => hGP x hx.le)
  have hm := P_strictMono ha0
  have hy := seq_pos (Spec.regGamma a) a p hx m
  have hb := seq_between ha hr e hx m
  refine ⟨x, _, eg, ei, hy, fun h => ?_, fun h => ?_⟩
  · rw [← e] at h
    obtain ⟨h1, h2⟩ := hb.1 ((hm.le_iff_le hr hx).1 h)
    refine ⟨?_, (hm.le_iff_le hy hx).2 h2⟩
    conv_lhs => rw [← e]
    exact (hm.le_iff_le hr hy).2 h1
  · rw [← e] at h
    obtain ⟨h1, h2⟩ := hb.2 ((hm.le_iff_le hx hr).1 h)
    refine ⟨(hm.le_iff_le hx hy).2 h1, ?_⟩
    conv_rhs => rw [← e]
    exact (hm.le_iff_le hy hr).2 h2

/-- C81 for `a ≥ 1`, with an exact `GammaP`: given enough turns, which the library limits to `digits`, the result `y` satisfies
`GammaP(a, y) = p` up to an error of `2 ε √ε a (a+y)²` if `√ε (a+y) ≤ 1/2`.  Missing: `a < 1`; a bound on the number of turns that are
enough, see `C81_tiny_wrong`. -/
theorem C81_accuracy_partial {GP : XR → XR → XR} {a p ε : ℝ} (ha : 1 ≤ a) (hp : 0 < p) (hp1 : p < 1) (he : 0 < ε) (hGP : Spec.IsGammaP GP a) :
    ∃ turns : ℕ, ∀ L : Limits, L.epsilon = ε → turns ≤ L.digits → ∃ y : ℝ, invGammaP L GP (fin a) (fin p) = fin y ∧ 0 < y ∧
      (Real.sqrt ε * (a + y) ≤ 1 / 2 → |Spec.regGamma a y - p| ≤ 2 * (ε * Real.sqrt ε) * a * (a + y) ^ 2) := by
  have ha0 : 0 < a := by linarith
  obtain ⟨r, hr, e⟩ := root ha0 hp hp1
  obtain ⟨x, eg, hx, -⟩ := guess ha0 hp hp1
  have hs : 0 < Real.sqrt ε := Real.sqrt_pos.2 he
  have h1 := seq_tendsto ha hr e hx
  have h2 := (step_continuous ha0 p hr).tendsto.comp h1
  rw [step_root e] at h2
  have h3 : Tendsto (fun n => Real.sqrt ε * InvGamma.seq (Spec.regGamma a) a p x (n + 1)) atTop (𝓝 (Real.sqrt ε * r)) :=
    ((tendsto_add_atTop_iff_nat 1).2 h1).const_mul _
  have h4 := (h2.abs).eventually_lt h3 (by rw [abs_zero]; positivity)
  obtain ⟨n, hn⟩ := eventually_atTop.1 h4
  refine ⟨n + 1, fun L hL hd => ?_⟩
  obtain ⟨x', eg', hx', -, m, -, ei, h⟩ := inv_seq L ha0 hp hp1 (hL ▸ he.le) (fun x hx => hGP x hx.le)
  have : x' = x := by rw [eg] at eg'; exact ((fin_inj _ _).1 eg').symm
  subst this
  have hlast : ∃ k, m = k + 1 ∧ |step a p (Spec.regGamma a (InvGamma.seq (Spec.regGamma a) a p x' k)) (InvGamma.seq (Spec.regGamma a) a p x' k)| <
      Real.sqrt ε * InvGamma.seq (Spec.regGamma a) a p x' m := by
    rcases h with ⟨k, rfl, hk⟩ | h
    · exact ⟨k, rfl, by rw [← hL]; exact hk⟩
    · refine ⟨m - 1, by omega, ?_⟩
      have := hn (m - 1) (by omega)
      rw [show m - 1 + 1 = m by omega] at this
      exact this
  obtain ⟨k, rfl, hk⟩ := hlast
  refine ⟨_, ei, seq_pos _ a p hx' _, fun hc => ?_⟩
  have h5 := stop ha hr e (seq_pos (Spec.regGamma a) a p hx' k) hs.le hk hc
  have h6 : Real.sqrt ε ^ 3 = ε * Real.sqrt ε := by rw [pow_succ, Real.sq_sqrt he.le]
  rw [h6] at h5
  exact h5

/-- An exact `GammaP`, for the examples. -/
noncomputable def exactGamma : XR → XR → XR := fun a x => match a, x with | fin a, fin x => fin (Spec.regGamma a x) | _, _ => nan
theorem exactGamma_isGammaP (a : ℝ) : Spec.IsGammaP exactGamma a := fun _ _ => rfl

/-- The hypotheses are met by `inv_GammaP(3., 1/4.)`, and there the error for `y ≤ 100` is less than 10⁻¹⁸. -/
example : (∃ y : ℝ, invGammaP .double exactGamma (fin 3) (fin (1 / 4)) = fin y ∧ 0 < y) ∧
    ∀ y : ℝ, 0 < y → y ≤ 100 → Real.sqrt (2⁻¹ ^ 52) * (3 + y) ≤ 1 / 2 ∧ 2 * ((2⁻¹ : ℝ) ^ 52 * Real.sqrt (2⁻¹ ^ 52)) * 3 * (3 + y) ^ 2 ≤ 1 / 10 ^ 18 := by
  have e : Real.sqrt (2⁻¹ ^ 52) = 2⁻¹ ^ 26 := by
    rw [show (2⁻¹ : ℝ) ^ 52 = (2⁻¹ ^ 26) ^ 2 by rw [← pow_mul], Real.sqrt_sq (by positivity)]
  refine ⟨C81_range (by norm_num) (by norm_num) (by norm_num) (by norm_num [Limits.double]) fun x _ => ⟨_, rfl⟩, fun y h0 h1 => ?_⟩
  rw [e]
  constructor
  · norm_num; linarith
  · have : (3 + y) ^ 2 ≤ 103 ^ 2 := pow_le_pow_left₀ (by linarith) (by linarith) 2
    norm_num; linarith

/-- C81 fails for tiny probabilities: the start 1/1000 is so far away that the turns do not suffice.  With an exact `GammaP`,
`inv_GammaP(2., 2⁻¹⁰⁰⁰)` returns a `double` whose probability is more than 2⁷⁵⁰ times too large. -/
theorem C81_tiny_wrong {GP : XR → XR → XR} (hGP : Spec.IsGammaP GP 2) :
    ∃ y : ℝ, invGammaP .double GP (fin 2) (fin (1 / 2 ^ 1000)) = fin y ∧ 2 ^ 750 * (1 / 2 ^ 1000) ≤ Spec.regGamma 2 y :=
  tiny fun x hx => hGP x hx.le

example : Spec.IsGammaP exactGamma 2 := exactGamma_isGammaP 2

/-- C81 fails for the probability 0: the quantile is 0, but for `a > 1` the result is NaN. -/
theorem C81_zero_wrong (L : Limits) (GP : XR → XR → XR) {a : ℝ} (ha : 1 < a) : invGammaP L GP (fin a) (fin 0) = nan := zero_nan L GP ha

end Trng.Props
