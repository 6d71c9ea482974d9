import Verif.Proofs.GammaAsymptEx
import Mathlib.Topology.Algebra.Polynomial

/-! A parameter where the sum of the correction is left too early. -/
namespace Trng.Temme
open Set Special XR

/-- intervals -/
def In (x : ℝ) (I : ℚ × ℚ) : Prop := (I.1 : ℝ) ≤ x ∧ x ≤ I.2

/-- the product with a positive interval -/
def mulI (I : ℚ × ℚ) (l h : ℚ) : ℚ × ℚ := (min (I.1 * l) (I.1 * h), max (I.2 * l) (I.2 * h))

theorem in_mulI {x u : ℝ} {I : ℚ × ℚ} {l h : ℚ} (hx : In x I) (hl : (0 : ℝ) ≤ l) (h1 : (l : ℝ) ≤ u) (h2 : u ≤ h) : In (x * u) (mulI I l h) := by
  obtain ⟨x1, x2⟩ := hx
  have hu : 0 ≤ u := hl.trans h1
  constructor
  · have e1 : (I.1 : ℝ) * u ≤ x * u := mul_le_mul_of_nonneg_right x1 hu
    refine le_trans ?_ e1
    rw [mulI]; push_cast
    rcases le_total 0 (I.1 : ℝ) with h | h
    · exact (min_le_left _ _).trans (mul_le_mul_of_nonneg_left h1 h)
    · exact (min_le_right _ _).trans (mul_le_mul_of_nonpos_left h2 h)
  · have e1 : x * u ≤ (I.2 : ℝ) * u := mul_le_mul_of_nonneg_right x2 hu
    refine e1.trans ?_
    rw [mulI]; push_cast
    rcases le_total 0 (I.2 : ℝ) with h | h
    · exact (mul_le_mul_of_nonneg_left h2 h).trans (le_max_right _ _)
    · exact (mul_le_mul_of_nonpos_left h1 h).trans (le_max_left _ _)

/-- the loop over the coefficients with intervals, `1/a` between `l` and `h` -/
def betaI (l h : ℚ) : ℕ → List (ℚ × ℚ) → List (ℚ × ℚ)
  | 0, b => b
  | i + 1, b =>
    let p := mulI (b.getD 1 (0, 0)) (l * (i + 2 : ℕ)) (h * (i + 2 : ℕ))
    betaI l h i ((p.1 + asymptCoeffs.getD (i + 1) 0, p.2 + asymptCoeffs.getD (i + 1) 0) :: b)

theorem in_zero : In 0 (0, 0) := by simp [In]

theorem forall₂_getD_in {b : List ℝ} {I : List (ℚ × ℚ)} (h : List.Forall₂ In b I) : ∀ j, In (b.getD j 0) (I.getD j (0, 0)) := by
  induction h with
  | nil => simp [in_zero]
  | cons h _ ih =>
    intro j
    cases j with
    | zero => simpa using h
    | succ j => simpa using ih j

theorem betaI_in {a : ℝ} {l h : ℚ} (hl : (0 : ℝ) ≤ l) (h1 : (l : ℝ) ≤ a⁻¹) (h2 : a⁻¹ ≤ h) : ∀ (k : ℕ) (b : List ℝ) (I : List (ℚ × ℚ)),
    List.Forall₂ In b I → List.Forall₂ In (betaG a dR k b) (betaI l h k I)
  | 0, _, _, hb => hb
  | i + 1, b, I, hb => by
    rw [betaG, betaI]
    refine betaI_in hl h1 h2 i _ _ (.cons ?_ hb)
    have e := in_mulI (u := a⁻¹ * (i + 2 : ℕ)) (l := l * (i + 2 : ℕ)) (h := h * (i + 2 : ℕ)) (forall₂_getD_in hb 1) (by push_cast; positivity)
      (by push_cast; gcongr) (by push_cast; gcongr)
    have e2 : b.getD 1 0 * (i + 2 : ℕ) / a = b.getD 1 0 * (a⁻¹ * (i + 2 : ℕ)) := by rw [div_eq_mul_inv]; ring
    rw [e2, dR]
    constructor
    · have := e.1; push_cast at this ⊢; linarith
    · have := e.2; push_cast at this ⊢; linarith

def BI (l h : ℚ) (n : ℕ) : List (ℚ × ℚ) :=
  betaI l h (n - 2) [(asymptCoeffs.getD (n - 1) 0, asymptCoeffs.getD (n - 1) 0), (asymptCoeffs.getD n 0, asymptCoeffs.getD n 0)]

theorem Bn_in {a : ℝ} {l h : ℚ} (hl : (0 : ℝ) ≤ l) (h1 : (l : ℝ) ≤ a⁻¹) (h2 : a⁻¹ ≤ h) (n : ℕ) : List.Forall₂ In (Bn a n) (BI l h n) :=
  betaI_in hl h1 h2 _ _ _ (.cons ⟨le_rfl, le_rfl⟩ (.cons ⟨le_rfl, le_rfl⟩ .nil))

/-- the value of a polynomial at a negative argument, whose absolute value is between `l` and `h` -/
def evI (l h : ℚ) : List (ℚ × ℚ) → ℚ × ℚ
  | [] => (0, 0)
  | c :: b => let p := mulI (evI l h b) l h
    (c.1 - p.2, c.2 - p.1)

theorem evI_in {t : ℝ} {l h : ℚ} (hl : (0 : ℝ) ≤ l) (h1 : (l : ℝ) ≤ t) (h2 : t ≤ h) : ∀ {b : List ℝ} {I : List (ℚ × ℚ)},
    List.Forall₂ In b I → In (ev b (-t)) (evI l h I)
  | _, _, .nil => in_zero
  | _, _, .cons (a := c) (b := C) (l₁ := b) (l₂ := I) hc hb => by
    have e := in_mulI (evI_in hl h1 h2 hb) hl h1 h2
    rw [ev, evI]
    constructor
    · have := e.2; have := hc.1; push_cast at *; linarith
    · have := e.1; have := hc.2; push_cast at *; linarith

theorem forall₂_drop_in {b : List ℝ} {I : List (ℚ × ℚ)} (h : List.Forall₂ In b I) : ∀ k, List.Forall₂ In (b.drop k) (I.drop k) := by
  induction h with
  | nil => intro k; simp
  | cons h h' ih =>
    intro k
    cases k with
    | zero => exact .cons h h'
    | succ k => exact ih k

theorem continuousOn_Bn (n i : ℕ) : ContinuousOn (fun a : ℝ => (Bn a n).getD i 0) (Ioi 0) := by
  have h : (fun a : ℝ => (Bn a n).getD i 0) = fun a => ((betaP dR (n - 2) [Polynomial.C (dR (n - 1)), Polynomial.C (dR n)]).getD i 0).eval a⁻¹ := by
    funext a
    have := betaP_eval a dR (n - 2) [Polynomial.C (dR (n - 1)), Polynomial.C (dR n)]
    simp only [List.map_cons, List.map_nil, Polynomial.eval_C] at this
    rw [Bn, ← this]
    simp only [List.getD_eq_getElem?_getD, List.getElem?_map]
    cases (betaP dR (n - 2) [Polynomial.C (dR (n - 1)), Polynomial.C (dR n)])[i]? <;> simp
  rw [h]
  refine (Polynomial.continuous _).comp_continuousOn ?_
  exact continuousOn_inv₀.mono fun a ha => (ne_of_gt ha : a ≠ 0)

set_option maxRecDepth 100000

/-- the parameter -/
theorem exists_zero : ∃ a : ℝ, 16178 / 1000 ≤ a ∧ a ≤ 16179 / 1000 ∧ (Bn a 26).getD 15 0 = 0 := by
  have h1 : 0 ≤ (Bn (16178 / 1000) 26).getD 15 0 := by
    have := forall₂_getD_in (Bn_in (a := 16178 / 1000) (l := 1000 / 16178) (h := 1000 / 16178) (by norm_num) (by norm_num) (by norm_num) 26) 15
    refine le_trans ?_ this.1
    have : (0 : ℚ) ≤ ((BI (1000 / 16178) (1000 / 16178) 26).getD 15 (0, 0)).1 := by decide +kernel
    exact_mod_cast this
  have h2 : (Bn (16179 / 1000) 26).getD 15 0 ≤ 0 := by
    have := forall₂_getD_in (Bn_in (a := 16179 / 1000) (l := 1000 / 16179) (h := 1000 / 16179) (by norm_num) (by norm_num) (by norm_num) 26) 15
    refine le_trans this.2 ?_
    have : ((BI (1000 / 16179) (1000 / 16179) 26).getD 15 (0, 0)).2 ≤ (0 : ℚ) := by decide +kernel
    exact_mod_cast this
  have hc := (continuousOn_Bn 26 15).mono (show Icc (16178 / 1000 : ℝ) (16179 / 1000) ⊆ Ioi 0 from fun a ha => lt_of_lt_of_le (by norm_num) ha.1)
  obtain ⟨a, ha, h0⟩ := intermediate_value_Icc' (by norm_num) hc ⟨h2, h1⟩
  exact ⟨a, ha.1, ha.2, h0⟩

theorem early_stop : ∃ a : ℝ, 16178 / 1000 ≤ a ∧ a ≤ 16179 / 1000 ∧ ∃ q : ℝ, gammaQAsympt .double (fin a) (fin (a * Real.exp (-1))) = fin q ∧
    5 * Limits.double.epsilon < |q - (1 - Spec.regGamma a (a * Real.exp (-1)))| := by
  obtain ⟨a, ha1, ha2, h0⟩ := exists_zero
  refine ⟨a, ha1, ha2, ?_⟩
  have ha0 : 0 < a := by linarith
  obtain ⟨x, hx⟩ : ∃ x, x = a * Real.exp (-1) := ⟨_, rfl⟩
  obtain ⟨r, hr⟩ : ∃ r, r = Real.exp (-1) := ⟨_, rfl⟩
  have hr1 : 36787944 / 10 ^ 8 ≤ r := by
    rw [hr, Real.exp_neg, le_inv_comm₀ (by norm_num) (Real.exp_pos _)]
    have := Real.exp_one_lt_d9; norm_num at this ⊢; linarith
  have hr2 : r ≤ 36787945 / 10 ^ 8 := by
    rw [hr, Real.exp_neg, inv_le_comm₀ (Real.exp_pos _) (by norm_num)]
    have := Real.exp_one_gt_d9; norm_num at this ⊢; linarith
  rw [← hx]
  rw [← hr] at hx
  have hx0 : 0 < x := by rw [hx]; nlinarith
  have hmu : (x - a) / a = r - 1 := by rw [hx]; field_simp
  have hhr : hh (-1) = r := by rw [hh, hr]; ring
  have hm : mln1p .double (fin ((x - a) / a)) = fin r := by
    rw [hmu, mln1p, if_pos]
    · rw [ln1p_fin (by linarith), fin_sub, show 1 + (r - 1) = r by ring, hr, Real.log_exp]
      congr 1; ring
    · simp only [ofNat_fin, abs_fin, Nat.cast_one, Nat.cast_ofNat]
      rw [fin_div (by norm_num), fin_le, abs_of_neg (by linarith)]
      linarith
  have hin := Bn_in (a := a) (l := 1000 / 16179) (h := 1000 / 16178) (by norm_num) (by rw [le_inv_comm₀ (by norm_num) ha0]; push_cast; linarith)
    (by rw [inv_le_comm₀ ha0 (by norm_num)]; push_cast; linarith) 26
  have hlen : (Bn a 26).length = 26 := by rw [Bn, betaG_length]; simp
  have hb1 := forall₂_getD_in hin 1
  have hb1l : (0 : ℝ) ≤ (Bn a 26).getD 1 0 := by
    refine le_trans ?_ hb1.1
    have : (0 : ℚ) ≤ ((BI (1000 / 16179) (1000 / 16178) 26).getD 1 (0, 0)).1 := by decide +kernel
    exact_mod_cast this
  have hb1u : (Bn a 26).getD 1 0 ≤ 1 / 10 := by
    refine hb1.2.trans ?_
    have : ((BI (1000 / 16179) (1000 / 16178) 26).getD 1 (0, 0)).2 ≤ (1 / 10 : ℚ) := by decide +kernel
    have := (Rat.cast_le (K := ℝ)).2 this
    push_cast at this; exact this
  have hD0 : 0 < 1 + (Bn a 26).getD 1 0 / a := by positivity
  have hD1 : 1 + (Bn a 26).getD 1 0 / a ≤ 101 / 100 := by
    have : (Bn a 26).getD 1 0 / a ≤ 1 / 100 := by rw [div_le_iff₀ ha0]; linarith
    linarith
  obtain ⟨t, ht⟩ : ∃ t, t = Real.sqrt (2 * r) := ⟨_, rfl⟩
  have ht2 : t ^ 2 = 2 * r := by rw [ht, Real.sq_sqrt (by linarith)]
  have ht0 : 0 ≤ t := by rw [ht]; exact Real.sqrt_nonneg _
  have ht1 : ((8577 / 10000 : ℚ) : ℝ) ≤ t := by rw [ht]; refine Real.le_sqrt_of_sq_le ?_; push_cast; nlinarith
  have ht3 : t ≤ ((8578 / 10000 : ℚ) : ℝ) := by rw [ht]; refine Real.sqrt_le_iff.2 ⟨by norm_num, ?_⟩; push_cast; nlinarith
  have hsneg : (x - a) / a < 0 := by rw [hmu]; linarith
  obtain ⟨k, hk, hk2, hk3, hQ, -⟩ := eval (L := .double) (x := x) ha0 (by rw [len_double]; norm_num) (by rw [len_double]; norm_num) (by rw [len_double]; exact hD0)
    (by linarith) hm (s := -t) (by rw [if_pos hsneg, ht])
  rw [len_double] at hk hk2 hk3 hQ
  refine ⟨_, hQ, ?_⟩
  have hst : (-t) ≠ 0 := by
    have : (0 : ℝ) < t := lt_of_lt_of_le (by norm_num) ht1
    linarith
  have hk15 : k = 15 := by
    have hle : k ≤ 15 := by
      by_contra hc
      exact hk3 15 (by omega) (by rw [h0, zero_mul])
    have hz := (hk2.resolve_left (by omega))
    have hz : (Bn a 26).getD k 0 = 0 := (mul_eq_zero.1 hz).resolve_right (pow_ne_zero _ hst)
    by_contra hne
    refine Bn_ne_zero (a0 := Limits.double.digits10) (by norm_num [Limits.double]) (by norm_num [Limits.double]; linarith) data_double.two data_double.fifty (by omega : k < 26)
      (data_double.dom k (by omega) ?_) hz
    simp only [List.mem_cons, List.not_mem_nil, or_false]; omega
  subst hk15
  -- the complete sum
  have hfull : |G a (Bn a 26) (-t) - (1 - Spec.regGamma a x)| ≤ 17 / 10 * Limits.double.epsilon := by
    have htt : tt (-1) 1 = t := by rw [tt, ht, mul_one, hhr]
    have := data_double.abs (a := a) (e := -1) (z := 1) (B := Bn a 26) (by norm_num [Limits.double]; linarith) hD0 (Bn_corr a (by norm_num) (by norm_num)) (Or.inr rfl)
      zero_le_one (by rw [htt]; refine ht3.trans (by norm_num))
    rw [psi, qq, htt, mul_one, ← hr, ← hx] at this
    rw [← abs_neg]
    refine le_trans (le_of_eq ?_) this
    congr 1
    rw [neg_one_mul]; ring_nf
  -- the part left out
  have e1 : ev (Bn a 26) (-t) = ev ((Bn a 26).take 15) (-t) + t ^ 16 * ev ((Bn a 26).drop 16) (-t) := by
    rw [ev_take (Bn a 26) (-t) 15]
    congr 1
    have h1 : (Bn a 26).drop 15 = 0 :: (Bn a 26).drop 16 := by
      have h15 : 15 < (Bn a 26).length := by omega
      rw [List.drop_eq_getElem_cons h15]
      rw [List.getD_eq_getElem?_getD, List.getElem?_eq_getElem h15, Option.getD_some] at h0
      rw [h0]
    rw [h1, ev, zero_add]; ring
  obtain ⟨T, hT⟩ : ∃ T, T = ev ((Bn a 26).drop 16) (-t) := ⟨_, rfl⟩
  rw [← hT] at e1
  have hTb : T ≤ -(86 / 10 ^ 12) := by
    have := (evI_in (by norm_num) ht1 ht3 (forall₂_drop_in hin 16)).2
    rw [hT]
    refine this.trans ?_
    have : (evI (8577 / 10000) (8578 / 10000) ((BI (1000 / 16179) (1000 / 16178) 26).drop 16)).2 ≤ -(86 / 10 ^ 12 : ℚ) := by decide +kernel
    have := (Rat.cast_le (K := ℝ)).2 this
    push_cast at this; exact this
  have hexp : r ^ 6 ≤ Real.exp (-(a * (-t) ^ 2 / 2)) := by
    rw [hr, ← Real.exp_nat_mul, neg_sq, ht2]
    refine Real.exp_le_exp.2 ?_
    push_cast
    nlinarith
  have hpi : Real.sqrt (2 * Real.pi) * Real.sqrt a ≤ 1011 / 100 := by
    rw [← Real.sqrt_mul (by positivity)]
    refine Real.sqrt_le_iff.2 ⟨by norm_num, ?_⟩
    have := Real.pi_lt_d2
    have := Real.pi_pos
    norm_num at *
    nlinarith
  have hpi0 : 0 < Real.sqrt (2 * Real.pi) * Real.sqrt a := by positivity
  have e4 : G a (Bn a 26) (-t) = ((1 - erfR (-t * Real.sqrt (a / 2))) / 2 + corr a (Bn a 26) 15 (-t))
      + t ^ 16 * T * Real.exp (-(a * (-t) ^ 2 / 2)) / ((1 + (Bn a 26).getD 1 0 / a) * (Real.sqrt (2 * Real.pi) * Real.sqrt a)) := by
    rw [corr, G, e1]
    have : Real.sqrt (2 * Real.pi) ≠ 0 := by positivity
    have : Real.sqrt a ≠ 0 := by positivity
    field_simp
    ring
  have e5 : t ^ 16 * T * Real.exp (-(a * (-t) ^ 2 / 2)) / ((1 + (Bn a 26).getD 1 0 / a) * (Real.sqrt (2 * Real.pi) * Real.sqrt a)) ≤ -(7 * Limits.double.epsilon) := by
    have h16 : t ^ 16 = (2 * r) ^ 8 := by rw [← ht2]; ring
    have hrr : (36787944 / 10 ^ 8) ^ 14 ≤ r ^ 14 := pow_le_pow_left₀ (by norm_num) hr1 14
    have hA : 2 ^ 8 * (36787944 / 10 ^ 8) ^ 14 ≤ t ^ 16 * Real.exp (-(a * (-t) ^ 2 / 2)) := by
      rw [h16]
      have : (2 * r) ^ 8 * r ^ 6 ≤ (2 * r) ^ 8 * Real.exp (-(a * (-t) ^ 2 / 2)) := mul_le_mul_of_nonneg_left hexp (by positivity)
      refine le_trans ?_ this
      rw [show (2 * r) ^ 8 * r ^ 6 = 2 ^ 8 * r ^ 14 by ring]
      exact mul_le_mul_of_nonneg_left hrr (by norm_num)
    have hden : (1 + (Bn a 26).getD 1 0 / a) * (Real.sqrt (2 * Real.pi) * Real.sqrt a) ≤ 101 / 100 * (1011 / 100) := mul_le_mul hD1 hpi hpi0.le (by norm_num)
    have hden0 := mul_pos hD0 hpi0
    rw [div_le_iff₀ hden0]
    obtain ⟨E, hE⟩ : ∃ E, E = t ^ 16 * Real.exp (-(a * (-t) ^ 2 / 2)) := ⟨_, rfl⟩
    have e6 : t ^ 16 * T * Real.exp (-(a * (-t) ^ 2 / 2)) = T * E := by rw [hE]; ring
    rw [e6]
    rw [← hE] at hA
    have h7 : T * E ≤ -(86 / 10 ^ 12) * (2 ^ 8 * (36787944 / 10 ^ 8) ^ 14) := by
      have hE0 : 0 ≤ E := le_trans (by norm_num) hA
      have := mul_le_mul_of_nonneg_right hTb hE0
      refine this.trans ?_
      rw [neg_mul, neg_mul]
      exact neg_le_neg (mul_le_mul_of_nonneg_left hA (by norm_num))
    refine h7.trans ?_
    rw [neg_mul, neg_mul]
    refine neg_le_neg ?_
    refine (mul_le_mul_of_nonneg_left hden (by norm_num [Limits.double])).trans ?_
    norm_num [Limits.double]
  have he : 0 < Limits.double.epsilon := by norm_num [Limits.double]
  have h8 := (abs_le.1 hfull).1
  rw [e4] at h8
  refine lt_of_lt_of_le ?_ (le_abs_self _)
  linarith

end Trng.Temme
