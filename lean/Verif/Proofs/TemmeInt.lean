import Verif.Proofs.Temme

/-! The incomplete Gamma functions and their expansion: derivatives, limits and the comparison. -/
namespace Trng.Temme
open Set Filter Topology

variable {a e z : ℝ}

/-! ### The polynomial of the correction -/

theorem ev_eq_sum {R : Type} [Field R] : ∀ (l : List R) (x : R), ev l x = ∑ i ∈ Finset.range l.length, l.getD i 0 * x ^ i
  | [], x => by simp [ev]
  | c :: l, x => by
    rw [ev, ev_eq_sum l x, List.length_cons, Finset.sum_range_succ', Finset.mul_sum, add_comm]
    congr 1
    · refine Finset.sum_congr rfl fun i _ => ?_
      rw [List.getD_cons_succ]; ring
    · simp

theorem evr_eq_sum : ∀ (l : List ℚ) (x : ℝ), evr l x = ∑ i ∈ Finset.range l.length, ((l.getD i 0 : ℚ) : ℝ) * x ^ i
  | [], x => by simp
  | c :: l, x => by
    rw [evr_cons, evr_eq_sum l x, List.length_cons, Finset.sum_range_succ', Finset.mul_sum, add_comm]
    congr 1
    · refine Finset.sum_congr rfl fun i _ => ?_
      rw [List.getD_cons_succ]; ring
    · simp

theorem hasDerivAt_ev (l : List ℝ) (x : ℝ) : HasDerivAt (ev l) (∑ i ∈ Finset.range l.length, l.getD i 0 * (i * x ^ (i - 1))) x := by
  have := HasDerivAt.fun_sum (u := Finset.range l.length) (A := fun i x => l.getD i 0 * x ^ i) (A' := fun i => l.getD i 0 * (i * x ^ (i - 1)))
    (x := x) (fun i _ => (hasDerivAt_pow i x).const_mul _)
  exact hd_congr this (fun x => ev_eq_sum l x) rfl

/-- The coefficients `B` of the correction belong to the polynomial `F`. -/
structure Corr (a : ℝ) (F : List ℚ) (B : List ℝ) : Prop where
  two : 2 ≤ B.length
  len : F.length = B.length + 1
  head : F.getD 0 0 = 1
  rel : ∀ i < B.length, B.getD i 0 = B.getD (i + 2) 0 * (i + 2 : ℕ) / a + ((F.getD (i + 1) 0 : ℚ) : ℝ)

theorem Corr.ode {F : List ℚ} {B : List ℝ} (ha : a ≠ 0) (h : Corr a F B) (s : ℝ) :
    ∑ i ∈ Finset.range B.length, B.getD i 0 * (i * s ^ (i - 1)) - a * s * ev B s = a + B.getD 1 0 - a * evr F s := by
  have h1 : a * s * ev B s = ∑ i ∈ Finset.range B.length, B.getD (i + 2) 0 * (i + 2 : ℕ) * s ^ (i + 1)
      + a * ∑ i ∈ Finset.range B.length, ((F.getD (i + 1) 0 : ℚ) : ℝ) * s ^ (i + 1) := by
    rw [ev_eq_sum, Finset.mul_sum, Finset.mul_sum, ← Finset.sum_add_distrib]
    refine Finset.sum_congr rfl fun i hi => ?_
    rw [h.rel i (Finset.mem_range.1 hi), pow_succ]
    field_simp
  have h2 : evr F s = 1 + ∑ i ∈ Finset.range B.length, ((F.getD (i + 1) 0 : ℚ) : ℝ) * s ^ (i + 1) := by
    rw [evr_eq_sum, h.len, Finset.sum_range_succ', h.head]; simp [add_comm]
  have h3 : ∑ i ∈ Finset.range (B.length + 2), B.getD i 0 * (i * s ^ (i - 1)) = ∑ i ∈ Finset.range B.length, B.getD i 0 * (i * s ^ (i - 1)) := by
    rw [Finset.sum_range_succ, Finset.sum_range_succ]
    simp [List.getD_eq_getElem?_getD]
  have h4 : ∑ i ∈ Finset.range (B.length + 2), B.getD i 0 * (i * s ^ (i - 1))
      = B.getD 1 0 + ∑ i ∈ Finset.range B.length, B.getD (i + 2) 0 * (i + 2 : ℕ) * s ^ (i + 1) := by
    rw [Finset.sum_range_succ', Finset.sum_range_succ']
    simp only [Nat.cast_zero, zero_mul, mul_zero, add_zero, zero_add, Nat.cast_one, Nat.sub_self, pow_zero, mul_one, add_assoc,
      one_add_one_eq_two]
    rw [add_comm]
    congr 1
    refine Finset.sum_congr rfl fun i _ => ?_
    rw [show i + 2 - 1 = i + 1 by omega]; ring
  rw [← h3, h4, h1, h2]; ring

/-! ### The expansion -/

/-- the expansion of `GammaQ`, as a function of `η` -/
noncomputable def G (a : ℝ) (B : List ℝ) (s : ℝ) : ℝ :=
  (1 - erfR (s * Real.sqrt (a / 2))) / 2 + ev B s / (1 + B.getD 1 0 / a) * Real.exp (-(a * s ^ 2 / 2)) / Real.sqrt a * (1 / Real.sqrt (2 * Real.pi))

/-- its factor -/
noncomputable def ct (a : ℝ) (B : List ℝ) : ℝ := Real.sqrt a / Real.sqrt (2 * Real.pi) / (1 + B.getD 1 0 / a)

theorem ct_pos {B : List ℝ} (ha : 0 < a) (hD : 0 < 1 + B.getD 1 0 / a) : 0 < ct a B := by rw [ct]; positivity

theorem hasDerivAt_G {F : List ℚ} {B : List ℝ} (ha : 0 < a) (hD : 0 < 1 + B.getD 1 0 / a) (h : Corr a F B) (s : ℝ) :
    HasDerivAt (G a B) (-(ct a B * Real.exp (-(a * s ^ 2 / 2)) * evr F s)) s := by
  have h1 : HasDerivAt (fun s : ℝ => s * Real.sqrt (a / 2)) (Real.sqrt (a / 2)) s := by
    simpa using (hasDerivAt_id s).mul_const (Real.sqrt (a / 2))
  have h2 := (((hasDerivAt_erfR (s * Real.sqrt (a / 2))).comp s h1).const_sub 1).div_const 2
  have h3 := (((((hasDerivAt_ev B s).div_const (1 + B.getD 1 0 / a)).mul (hasDerivAt_gauss a s)).div_const (Real.sqrt a)).mul_const
    (1 / Real.sqrt (2 * Real.pi)))
  have h4 := h2.add h3
  refine hd_congr h4 (fun x => rfl) ?_
  have hode := h.ode ha.ne' s
  have e1 : -(s * Real.sqrt (a / 2)) ^ 2 = -(a * s ^ 2 / 2) := by
    rw [mul_pow, Real.sq_sqrt (by positivity)]; ring
  rw [e1]
  obtain ⟨D, hDe⟩ : ∃ D, D = 1 + B.getD 1 0 / a := ⟨_, rfl⟩
  obtain ⟨W, hW⟩ : ∃ W, W = Real.exp (-(a * s ^ 2 / 2)) := ⟨_, rfl⟩
  obtain ⟨S, hS⟩ : ∃ S, S = ∑ i ∈ Finset.range B.length, B.getD i 0 * (i * s ^ (i - 1)) := ⟨_, rfl⟩
  rw [← hS] at hode
  have e2 : Real.sqrt (a / 2) = Real.sqrt a / Real.sqrt 2 := Real.sqrt_div ha.le 2
  have e3 : Real.sqrt (2 * Real.pi) = Real.sqrt 2 * Real.sqrt Real.pi := Real.sqrt_mul (by norm_num) _
  have hb : B.getD 1 0 = a * (D - 1) := by rw [hDe]; field_simp; ring
  rw [hb] at hode
  rw [← hDe] at hD
  simp only [ct]
  rw [← hS, ← hW, ← hDe, e2, e3]
  have p1 : Real.sqrt 2 ≠ 0 := by positivity
  have p2 : Real.sqrt Real.pi ≠ 0 := by have := Real.pi_pos; positivity
  have p3 : Real.sqrt a ≠ 0 := by positivity
  have e4 : S = a * D - a * evr F s + a * s * ev B s := by linarith
  rw [e4]
  have e5 : Real.sqrt a ^ 2 = a := Real.sq_sqrt ha.le
  have e6 : Real.sqrt 2 ^ 2 = 2 := Real.sq_sqrt (by norm_num)
  field_simp
  rw [e5]
  ring

theorem tendsto_poly_gauss (ha : 0 < a) (he : Sign e) : ∀ (l : List ℝ) (k : ℕ),
    Tendsto (fun x : ℝ => x ^ k * ev l (e * x) * Real.exp (-(a * x ^ 2 / 2))) atTop (𝓝 0)
  | [], k => by simp [ev]
  | c :: l, k => by
    have h1 : Tendsto (fun x : ℝ => x ^ k * Real.exp (-(a * x ^ 2 / 2))) atTop (𝓝 0) := by
      refine squeeze_zero' ?_ ?_ (Real.tendsto_pow_mul_exp_neg_atTop_nhds_zero k)
      · filter_upwards [eventually_ge_atTop 0] with x hx using by positivity
      · filter_upwards [eventually_ge_atTop 0, eventually_ge_atTop (2 / a)] with x hx hx2
        rw [div_le_iff₀ ha] at hx2
        have : x ≤ a * x ^ 2 / 2 := by nlinarith
        exact mul_le_mul_of_nonneg_left (Real.exp_le_exp.2 (by linarith)) (by positivity)
    have h2 := (h1.const_mul c).add ((tendsto_poly_gauss ha he l (k + 1)).const_mul e)
    rw [mul_zero, mul_zero, add_zero] at h2
    refine h2.congr fun x => ?_
    rw [ev]; ring

/-- the expansion, for both sides -/
noncomputable def psi (a : ℝ) (B : List ℝ) (e z : ℝ) : ℝ := (1 - e) / 2 + e * G a B (e * tt e z)

theorem tendsto_psi {B : List ℝ} (ha : 0 < a) (he : Sign e) : Tendsto (psi a B e) atTop (𝓝 0) := by
  have h1 := (tendsto_poly_gauss ha he B 0).comp (tendsto_tt he)
  have hs : 0 < Real.sqrt (a / 2) := by positivity
  have h2 : Tendsto (fun z => erfR (tt e z * Real.sqrt (a / 2))) atTop (𝓝 1) :=
    tendsto_erfR_top.comp ((tendsto_tt he).atTop_mul_const hs)
  have h3 := ((h2.const_sub 1).div_const 2).add (h1.const_mul (e / (1 + B.getD 1 0 / a) / Real.sqrt a * (1 / Real.sqrt (2 * Real.pi))))
  rw [sub_self, zero_div, mul_zero, add_zero] at h3
  refine h3.congr fun z => ?_
  have e1 : (e * tt e z) ^ 2 = tt e z ^ 2 := by rw [mul_pow, pow_two e, he.sq, one_mul]
  have e2 : erfR (e * tt e z * Real.sqrt (a / 2)) = e * erfR (tt e z * Real.sqrt (a / 2)) := by
    rcases he with rfl | rfl
    · simp
    · rw [neg_one_mul, neg_mul, erfR_neg, neg_one_mul]
  simp only [psi, G, Function.comp, pow_zero, one_mul]
  rw [e1, e2]
  have := he.sq
  linear_combination (-(erfR (tt e z * Real.sqrt (a / 2)) / 2)) * (-this)

/-! ### The functions themselves -/

/-- the complementary function for `e = 1` and the function for `e = -1` -/
noncomputable def qq (a e z : ℝ) : ℝ := (1 + e) / 2 - e * Spec.regGamma a (a * Real.exp (e * z))

noncomputable def cc (a : ℝ) : ℝ := Real.exp (a * Real.log a - a - Real.log (Real.Gamma a))
theorem cc_pos (a : ℝ) : 0 < cc a := Real.exp_pos _

theorem hasDerivAt_qq (ha : 0 < a) (he : Sign e) (z : ℝ) : HasDerivAt (qq a e) (-(cc a * Real.exp (-(a * tt e z ^ 2 / 2)))) z := by
  have h1 : HasDerivAt (fun z : ℝ => e * z) e z := by simpa using (hasDerivAt_id z).const_mul e
  have hx : 0 < a * Real.exp (e * z) := by positivity
  have h2 := (((InvGamma.P_deriv ha hx).comp z (h1.exp.const_mul a)).const_mul e).const_sub ((1 + e) / 2)
  refine hd_congr h2 (fun x => rfl) ?_
  rw [InvGamma.w, Real.log_mul ha.ne' (Real.exp_pos _).ne', Real.log_exp, tt_sq, cc, ← Real.exp_add]
  have e1 : ∀ A : ℝ, e * (A * (a * (Real.exp (e * z) * e))) = A * (a * Real.exp (e * z)) := fun A => by
    have := he.sq
    linear_combination (A * a * Real.exp (e * z)) * this
  rw [e1]
  have e2 : a * Real.exp (e * z) = Real.exp (Real.log a + e * z) := by rw [Real.exp_add, Real.exp_log ha]
  congr 1
  rw [show Real.exp (-(a * Real.exp (e * z)) + (a - 1) * (Real.log a + e * z) - Real.log (Real.Gamma a)) * (a * Real.exp (e * z))
    = Real.exp (-(a * Real.exp (e * z)) + (a - 1) * (Real.log a + e * z) - Real.log (Real.Gamma a)) * Real.exp (Real.log a + e * z) by rw [← e2],
    ← Real.exp_add, hh]
  congr 1
  ring

theorem tendsto_qq (ha : 0 < a) (he : Sign e) : Tendsto (qq a e) atTop (𝓝 0) := by
  rcases he with rfl | rfl
  · have h1 : Tendsto (fun z : ℝ => a * Real.exp z) atTop atTop := Real.tendsto_exp_atTop.const_mul_atTop ha
    have := ((InvGamma.reg_tendsto ha).comp h1).const_sub 1
    rw [sub_self] at this
    refine this.congr fun z => ?_
    simp only [qq, Function.comp]; norm_num
  · have h1 : Tendsto (fun z : ℝ => a * Real.exp (-z)) atTop (𝓝[Ici 0] 0) := by
      refine tendsto_nhdsWithin_iff.2 ⟨?_, Eventually.of_forall fun z => ?_⟩
      · have := Real.tendsto_exp_neg_atTop_nhds_zero.const_mul a
        rwa [mul_zero] at this
      · exact (mul_pos ha (Real.exp_pos _)).le
    have h2 := (InvGamma.reg_continuous ha 0 (mem_Ici.2 le_rfl)).tendsto
    rw [InvGamma.reg_zero] at h2
    refine (h2.comp h1).congr fun z => ?_
    simp only [qq, Function.comp]; norm_num

theorem qq_nonneg (ha : 0 < a) (he : Sign e) (z : ℝ) : 0 ≤ qq a e z := by
  have hx : 0 ≤ a * Real.exp (e * z) := by positivity
  rcases he with rfl | rfl
  · have := InvGamma.reg_lt_one ha hx
    rw [qq]; linarith
  · have := InvGamma.reg_nonneg ha hx
    rw [qq]; linarith

theorem qq_zero_add (a : ℝ) : qq a 1 0 + qq a (-1) 0 = 1 := by simp only [qq, mul_zero]; ring
theorem psi_zero_add (a : ℝ) (B : List ℝ) : psi a B 1 0 + psi a B (-1) 0 = 1 := by simp only [psi, tt_zero, mul_zero]; ring

theorem continuous_qq (ha : 0 < a) (he : Sign e) : Continuous (qq a e) :=
  continuous_iff_continuousAt.2 fun z => (hasDerivAt_qq ha he z).continuousAt

/-- A lower bound: the integral over an interval of length `w`. -/
theorem qq_ge (ha : 0 < a) (he : Sign e) (hz : 0 ≤ z) {w : ℝ} (hw : 0 ≤ w) :
    w * cc a * Real.exp (-(a * hh (e * (z + w)))) ≤ qq a e z := by
  obtain ⟨k, hk⟩ : ∃ k, k = cc a * Real.exp (-(a * hh (e * (z + w)))) := ⟨_, rfl⟩
  have := sub_le_of_deriv (X := fun x => -(k * x)) (X' := fun _ => -k) (Y := qq a e) (le_add_of_nonneg_right hw : z ≤ z + w)
    (by fun_prop) (continuous_qq ha he).continuousOn (fun x _ => hd_congr ((hasDerivAt_id x).const_mul k).neg (fun _ => rfl) (by ring))
    (fun x _ => hasDerivAt_qq ha he x) (fun x hx => by
      rw [neg_neg, neg_neg, hk]
      refine mul_le_mul_of_nonneg_left (Real.exp_le_exp.2 ?_) (cc_pos a).le
      have h1 : tt e x ^ 2 ≤ tt e (z + w) ^ 2 := pow_le_pow_left₀ (tt_nonneg _ _) (tt_mono he (hz.trans hx.1.le) hx.2.le) 2
      rw [tt_sq e (z + w)] at h1
      nlinarith)
  have h2 := qq_nonneg ha he (z + w)
  rw [mul_assoc, ← hk]
  linarith

theorem hasDerivAt_psi {F : List ℚ} {B : List ℝ} (ha : 0 < a) (hD : 0 < 1 + B.getD 1 0 / a) (h : Corr a F B) (he : Sign e) (hz : 0 < z) :
    HasDerivAt (psi a B e) (-(ct a B * Real.exp (-(a * tt e z ^ 2 / 2)) * (evr F (e * tt e z) * uu e z / tt e z))) z := by
  have h1 := (((hasDerivAt_G ha hD h (e * tt e z)).comp z ((hasDerivAt_tt he hz).const_mul e)).const_mul e).const_add ((1 - e) / 2)
  refine hd_congr h1 (fun x => rfl) ?_
  have e1 : (e * tt e z) ^ 2 = tt e z ^ 2 := by rw [mul_pow, pow_two e, he.sq, one_mul]
  rw [e1]
  have := he.sq
  linear_combination (ct a B * Real.exp (-(a * tt e z ^ 2 / 2)) * (evr F (e * tt e z) * uu e z / tt e z)) * this

theorem continuous_psi {F : List ℚ} {B : List ℝ} (ha : 0 < a) (hD : 0 < 1 + B.getD 1 0 / a) (h : Corr a F B) (e : ℝ) : Continuous (psi a B e) := by
  have h1 : Continuous (G a B) := continuous_iff_continuousAt.2 fun s => (hasDerivAt_G ha hD h s).continuousAt
  have h2 := continuous_tt e
  unfold psi
  fun_prop

/-! ### Comparison -/

/-- What has to be known of the polynomial `F`: `s`, `r` separate three zones. -/
structure Zones (F : List ℚ) (r : ℚ) (N : ℕ) (C2 : ℚ) : Prop where
  r_pos : 0 < r
  rho0 : (rho F).head? = some 0
  range : ∀ s : ℝ, |s| ≤ r → 0 ≤ evr F s ∧ evr F s ≤ 3
  far : ∀ s : ℝ, (r : ℝ) ≤ |s| → |evr F s| + 1 + |s| ≤ C2 * |s| ^ (2 * N + 1)

structure Mid (F : List ℚ) (r : ℚ) (N : ℕ) (s1 C1 : ℚ) : Prop where
  s_pos : 0 < s1
  s_lt : s1 ≤ r
  mid : ∀ t : ℝ, (s1 : ℝ) ≤ t → t ≤ r → (1 + t) * evr (pE F) t ≤ C1 * t ^ (2 * N + 1)
  C_nonneg : 0 ≤ C1

/-- the moments -/
noncomputable def MM (a : ℝ) (N : ℕ) (t : ℝ) : ℝ := Real.exp (-(a * t ^ 2 / 2)) * mom a t N

theorem MM_nonneg (ha : 0 < a) (N : ℕ) {t : ℝ} (ht : 0 ≤ t) : 0 ≤ MM a N t := mul_nonneg (Real.exp_pos _).le (mom_pos ha ht N).le

theorem hasDerivAt_MM (ha : 0 < a) (N : ℕ) (he : Sign e) (hz : 0 < z) : HasDerivAt (fun z => MM a N (tt e z))
    (-(tt e z ^ (2 * N + 1) * Real.exp (-(a * tt e z ^ 2 / 2)) * (uu e z / tt e z))) z := by
  refine hd_congr ((hasDerivAt_mom ha.ne' (tt e z) N).comp z (hasDerivAt_tt he hz)) (fun x => rfl) (by ring)

theorem continuous_MM (ha : 0 < a) (N : ℕ) (e : ℝ) : Continuous (fun z => MM a N (tt e z)) := by
  have h1 : Continuous (MM a N) := continuous_iff_continuousAt.2 fun t => (hasDerivAt_mom ha.ne' t N).continuousAt
  exact h1.comp (continuous_tt e)

theorem MM_anti (ha : 0 < a) (N : ℕ) {s t : ℝ} (hs : 0 ≤ s) (hst : s ≤ t) : MM a N t ≤ MM a N s := by
  have : AntitoneOn (MM a N) (Ici 0) := by
    refine antitoneOn_of_deriv_nonpos (convex_Ici 0) (fun t _ => (hasDerivAt_mom ha.ne' t N).continuousAt.continuousWithinAt)
      (fun t _ => (hasDerivAt_mom ha.ne' t N).differentiableAt.differentiableWithinAt) fun t ht => ?_
    rw [interior_Ici] at ht
    rw [show MM a N = fun t => Real.exp (-(a * t ^ 2 / 2)) * mom a t N from rfl, (hasDerivAt_mom ha.ne' t N).deriv]
    have ht' : 0 < t := ht
    have := Real.exp_pos (-(a * t ^ 2 / 2))
    have : 0 ≤ t ^ (2 * N + 1) * Real.exp (-(a * t ^ 2 / 2)) := by positivity
    linarith
  exact this (mem_Ici.2 hs) (mem_Ici.2 (hs.trans hst)) hst

variable {F : List ℚ} {B : List ℝ} {r C1 C2 s1 : ℚ} {N : ℕ}

theorem compare (ha : 0 < a) (hD : 0 < 1 + B.getD 1 0 / a) (h : Corr a F B) (hZ : Zones F r N C2) (hM : Mid F r N s1 C1) (he : Sign e)
    (hz : 0 ≤ z) (hzr : tt e z ≤ r) :
    |psi a B e z / (ct a B / cc a) - qq a e z| ≤ evr (pE F) s1 * qq a e z + cc a * (C1 * MM a N s1 + C2 * MM a N r) := by
  have hct := ct_pos (B := B) ha hD
  have hcc := cc_pos a
  have hs1 : (0 : ℝ) < s1 := by exact_mod_cast hM.s_pos
  have hr1 : (0 : ℝ) < r := by exact_mod_cast hZ.r_pos
  have hsr : (s1 : ℝ) ≤ r := by exact_mod_cast hM.s_lt
  have hC1 : (0 : ℝ) ≤ C1 := by exact_mod_cast hM.C_nonneg
  obtain ⟨X, hX⟩ : ∃ X : ℝ → ℝ, X = fun z => psi a B e z / (ct a B / cc a) - qq a e z := ⟨_, rfl⟩
  have hXc : Continuous X := by
    rw [hX]
    exact ((continuous_psi ha hD h e).div_const _).sub (continuous_qq ha he)
  have hXd : ∀ x, 0 < x → HasDerivAt X (-(cc a * Real.exp (-(a * tt e x ^ 2 / 2)) * (evr F (e * tt e x) * uu e x / tt e x - 1))) x := by
    intro x hx
    rw [hX]
    refine hd_congr (((hasDerivAt_psi ha hD h he hx).div_const _).sub (hasDerivAt_qq ha he x)) (fun _ => rfl) ?_
    field_simp
    ring
  have hXabs : ∀ x, |-(cc a * Real.exp (-(a * tt e x ^ 2 / 2)) * (evr F (e * tt e x) * uu e x / tt e x - 1))|
      = cc a * Real.exp (-(a * tt e x ^ 2 / 2)) * |evr F (e * tt e x) * uu e x / tt e x - 1| := by
    intro x
    rw [abs_neg, abs_mul, abs_of_pos (mul_pos hcc (Real.exp_pos _))]
  have habs : ∀ x : ℝ, |e * tt e x| = tt e x := fun x => by rw [abs_mul, he.abs, one_mul, abs_of_nonneg (tt_nonneg e x)]
  have hu1 : ∀ x, 0 < x → 1 ≤ (1 + tt e x) * (uu e x / tt e x) := by
    intro x hx
    have := tt_le he hx.le
    rw [← mul_div_assoc, le_div_iff₀ (tt_pos he hx)]
    linarith
  have hu0 : ∀ x, 0 < x → 0 ≤ uu e x / tt e x := fun x hx => div_nonneg (uu_nonneg he hx.le) (tt_nonneg _ _)
  have hC2 : (0 : ℝ) ≤ C2 := by
    have := hZ.far r (by rw [abs_of_pos hr1])
    have h2 := abs_nonneg (evr F r)
    rw [abs_of_pos hr1] at this
    by_contra hc
    push Not at hc
    have h3 : 0 < (r : ℝ) ^ (2 * N + 1) := by positivity
    nlinarith
  -- far away
  obtain ⟨zr, hzr0, hzre⟩ := exists_tt he hr1.le
  have hfar : |X zr| ≤ cc a * (C2 * MM a N r) := by
    have h1 : ∀ q, zr ≤ q → |X zr - X q| ≤ cc a * (C2 * MM a N r) := by
      intro q hq
      have := abs_sub_le_of_deriv (X := X) (Y := fun z => cc a * (C2 * MM a N (tt e z)))
        (Y' := fun x => cc a * (C2 * -(tt e x ^ (2 * N + 1) * Real.exp (-(a * tt e x ^ 2 / 2)) * (uu e x / tt e x)))) hq hXc.continuousOn
        ((continuous_const.mul (continuous_const.mul (continuous_MM ha N e)))).continuousOn (fun x hx => hXd x (hzr0.trans_lt hx.1))
        (fun x hx => ((hasDerivAt_MM ha N he (hzr0.trans_lt hx.1)).const_mul _).const_mul _) (fun x hx => by
          have hx0 := hzr0.trans_lt hx.1
          rw [hXabs]
          have h2 : (r : ℝ) ≤ tt e x := by rw [← hzre]; exact tt_mono he hzr0 hx.1.le
          have h3 := hZ.far (e * tt e x) (by rwa [habs])
          rw [habs] at h3
          have h4 : |evr F (e * tt e x) * uu e x / tt e x - 1| ≤ C2 * tt e x ^ (2 * N + 1) * (uu e x / tt e x) := by
            have h5 := abs_sub (evr F (e * tt e x) * uu e x / tt e x) 1
            have h6 : |evr F (e * tt e x) * uu e x / tt e x| = |evr F (e * tt e x)| * (uu e x / tt e x) := by
              rw [mul_div_assoc, abs_mul, abs_of_nonneg (hu0 x hx0)]
            rw [h6, abs_one] at h5
            have h7 := mul_le_mul_of_nonneg_right h3 (hu0 x hx0)
            have h8 := hu1 x hx0
            nlinarith
          have h9 := mul_le_mul_of_nonneg_left h4 (mul_pos hcc (Real.exp_pos (-(a * tt e x ^ 2 / 2)))).le
          linarith)
      have h2 := mul_nonneg hC2 (MM_nonneg ha N (tt_nonneg e q))
      have h3 := mul_nonneg hcc.le h2
      rw [hzre] at this
      linarith
    have hlim : Tendsto X atTop (𝓝 0) := by
      have := ((tendsto_psi (B := B) ha he).div_const (ct a B / cc a)).sub (tendsto_qq ha he)
      rw [zero_div, sub_zero] at this
      rw [hX]; exact this
    have h2 : Tendsto (fun q => |X zr - X q|) atTop (𝓝 |X zr - 0|) := (hlim.const_sub _).abs
    rw [sub_zero] at h2
    exact le_of_tendsto h2 (by filter_upwards [eventually_ge_atTop zr] with q hq using h1 q hq)
  -- the middle
  have hmid : ∀ p, 0 ≤ p → (s1 : ℝ) ≤ tt e p → tt e p ≤ r → |X p - X zr| ≤ cc a * (C1 * MM a N s1) := by
    intro p hp hp1 hp2
    have hpz : p ≤ zr := by
      rw [← hzre] at hp2
      exact (tt_strictMono he).le_iff_le (mem_Ici.2 hp) (mem_Ici.2 hzr0) |>.1 hp2
    have := abs_sub_le_of_deriv (X := X) (Y := fun z => cc a * (C1 * MM a N (tt e z)))
        (Y' := fun x => cc a * (C1 * -(tt e x ^ (2 * N + 1) * Real.exp (-(a * tt e x ^ 2 / 2)) * (uu e x / tt e x)))) hpz hXc.continuousOn
        ((continuous_const.mul (continuous_const.mul (continuous_MM ha N e)))).continuousOn (fun x hx => hXd x (hp.trans_lt hx.1))
        (fun x hx => ((hasDerivAt_MM ha N he (hp.trans_lt hx.1)).const_mul _).const_mul _) (fun x hx => by
          have hx0 := hp.trans_lt hx.1
          rw [hXabs]
          have h2 : tt e x ≤ r := by rw [← hzre]; exact tt_mono he hx0.le hx.2.le
          have h2' : (s1 : ℝ) ≤ tt e x := hp1.trans (tt_mono he hp hx.1.le)
          have h3 := deviation he hZ.rho0 hZ.range hx0 h2
          have h4 := hM.mid _ h2' h2
          have h5 : |evr F (e * tt e x) * uu e x / tt e x - 1| ≤ C1 * tt e x ^ (2 * N + 1) * (uu e x / tt e x) := by
            have h6 := mul_le_mul_of_nonneg_right h4 (hu0 x hx0)
            have h7 := mul_le_mul_of_nonneg_left (hu1 x hx0) (evr_nonneg (nonneg_pE F) (tt_nonneg e x))
            linarith
          have h9 := mul_le_mul_of_nonneg_left h5 (mul_pos hcc (Real.exp_pos (-(a * tt e x ^ 2 / 2)))).le
          linarith)
    have h2 := mul_nonneg hcc.le (mul_nonneg hC1 (MM_nonneg ha N (tt_nonneg e zr)))
    have h3 := mul_le_mul_of_nonneg_left (mul_le_mul_of_nonneg_left (MM_anti ha N hs1.le hp1) hC1) hcc.le
    linarith
  have hE := evr_nonneg (nonneg_pE F) hs1.le
  have hXz : psi a B e z / (ct a B / cc a) - qq a e z = X z := by rw [hX]
  rw [hXz]
  rcases le_total (s1 : ℝ) (tt e z) with hcase | hcase
  · have h1 := hmid z hz hcase hzr
    have h2 := abs_sub_abs_le_abs_sub (X z) (X zr)
    have h3 := mul_nonneg hE (qq_nonneg ha he z)
    nlinarith
  · obtain ⟨z1, hz1, hz1e⟩ := exists_tt he hs1.le
    have h1 := hmid z1 hz1 hz1e.ge (hz1e.le.trans hsr)
    have hzz : z ≤ z1 := by
      rw [← hz1e] at hcase
      exact (tt_strictMono he).le_iff_le (mem_Ici.2 hz) (mem_Ici.2 hz1) |>.1 hcase
    have h2 := abs_sub_le_of_deriv (X := X) (Y := fun z => evr (pE F) s1 * qq a e z)
        (Y' := fun x => evr (pE F) s1 * -(cc a * Real.exp (-(a * tt e x ^ 2 / 2)))) hzz hXc.continuousOn
        ((continuous_const.mul (continuous_qq ha he))).continuousOn (fun x hx => hXd x (hz.trans_lt hx.1))
        (fun x hx => (hasDerivAt_qq ha he x).const_mul _) (fun x hx => by
          have hx0 := hz.trans_lt hx.1
          rw [hXabs]
          have h2 : tt e x ≤ s1 := by rw [← hz1e]; exact tt_mono he hx0.le hx.2.le
          have h3 := deviation he hZ.rho0 hZ.range hx0 (h2.trans hsr)
          have h4 := evr_mono (nonneg_pE F) (tt_nonneg e x) h2
          have h9 := mul_le_mul_of_nonneg_left (h3.trans h4) (mul_pos hcc (Real.exp_pos (-(a * tt e x ^ 2 / 2)))).le
          linarith)
    have h3 := abs_sub_abs_le_abs_sub (X z1) (X zr)
    have h4 := abs_sub_abs_le_abs_sub (X z) (X z1)
    have h5 := mul_nonneg hE (qq_nonneg ha he z1)
    nlinarith

end Trng.Temme
