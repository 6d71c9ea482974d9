import Verif.Proofs.GammaAsympt
import Mathlib.Analysis.Real.Pi.Bounds

/-! The error of the asymptotic expansion as the code computes it. -/
namespace Trng.Temme
open Set Filter Topology Special XR

/-! ### The variable -/

/-- the sign of `x - a` -/
noncomputable def sg (a x : ℝ) : ℝ := if (x - a) / a < 0 then -1 else 1
noncomputable def zz (a x : ℝ) : ℝ := sg a x * Real.log (x / a)

variable {a x : ℝ}

theorem sg_sign (a x : ℝ) : Sign (sg a x) := by unfold sg; split <;> [exact Or.inr rfl; exact Or.inl rfl]

theorem zz_nonneg (ha : 0 < a) (hx : 0 < x) : 0 ≤ zz a x := by
  rw [zz, sg]
  split
  · rename_i h
    rw [div_neg_iff] at h
    have : x < a := by rcases h with h | h <;> linarith
    have := Real.log_nonpos (by positivity) ((div_le_one ha).2 this.le)
    linarith
  · rename_i h
    rw [not_lt, div_nonneg_iff] at h
    have : a ≤ x := by rcases h with h | h <;> linarith
    have := Real.log_nonneg ((one_le_div ha).2 this)
    linarith

theorem sg_zz (a x : ℝ) : sg a x * zz a x = Real.log (x / a) := by
  rw [zz, ← mul_assoc, (sg_sign a x).sq, one_mul]

theorem exp_sg_zz (ha : 0 < a) (hx : 0 < x) : a * Real.exp (sg a x * zz a x) = x := by
  rw [sg_zz, Real.exp_log (by positivity)]; field_simp

theorem one_add_mu (ha : 0 < a) : 1 + (x - a) / a = x / a := by field_simp; ring

theorem hh_zz (ha : 0 < a) (hx : 0 < x) : hh (sg a x * zz a x) = (x - a) / a - Real.log (1 + (x - a) / a) := by
  rw [one_add_mu ha, sg_zz, hh, Real.exp_log (by positivity)]
  congr 1
  field_simp

theorem qq_zz (ha : 0 < a) (hx : 0 < x) : qq a (sg a x) (zz a x) = (1 + sg a x) / 2 - sg a x * Spec.regGamma a x := by
  rw [qq, exp_sg_zz ha hx]

/-! ### Bounds in the central region -/

theorem exp_bound3 (y : ℝ) (hy : |y| ≤ 1) : Real.exp y ≤ 1 + y + y ^ 2 / 2 + y ^ 3 / 6 + |y| ^ 4 * (5 / 96) := by
  have := Real.exp_bound hy (n := 4) (by norm_num)
  have h1 := (abs_le.1 this).2
  simp only [Finset.sum_range_succ, Finset.sum_range_zero, Nat.factorial] at h1
  norm_num at h1 ⊢
  linarith

theorem log_235 : 85 / 100 ≤ Real.log (235 / 100) := by
  rw [Real.le_log_iff_exp_le (by norm_num)]
  have h1 := exp_bound3 (-(15 / 100)) (by rw [abs_neg, abs_of_pos] <;> norm_num)
  rw [abs_neg, abs_of_pos (by norm_num)] at h1
  have h2 := Real.exp_one_lt_d9
  have h3 : Real.exp (85 / 100) = Real.exp 1 * Real.exp (-(15 / 100)) := by rw [← Real.exp_add]; norm_num
  have h4 := Real.exp_pos (-(15 / 100))
  rw [h3]
  have h5 : Real.exp (-(15 / 100)) ≤ 862 / 1000 := h1.trans (by norm_num)
  nlinarith

theorem log_03 : -(121 / 100) ≤ Real.log (3 / 10) := by
  rw [Real.le_log_iff_exp_le (by norm_num), Real.exp_neg, inv_le_comm₀ (Real.exp_pos _) (by norm_num)]
  have h1 := Real.quadratic_le_exp_of_nonneg (x := 21 / 100) (by norm_num)
  have h2 := Real.exp_one_gt_d9
  have h3 : Real.exp (121 / 100) = Real.exp 1 * Real.exp (21 / 100) := by rw [← Real.exp_add]; norm_num
  rw [h3]
  norm_num at h1 ⊢
  nlinarith

theorem hh_le_hh {e z z' : ℝ} (he : Sign e) (hz : 0 ≤ z) (h : z ≤ z') : hh (e * z) ≤ hh (e * z') := by
  have h1 := pow_le_pow_left₀ (tt_nonneg e z) (tt_mono he hz h) 2
  rw [tt_sq, tt_sq] at h1
  linarith

theorem hh_shift (ha : 0 < a) (h1 : 3 / 10 * a < x) (h2 : x < 235 / 100 * a) : hh (sg a x * (zz a x + 1 / 25)) ≤ 5618 / 10000 := by
  have hx : 0 < x := by nlinarith
  have hz := zz_nonneg ha hx
  have hpos : 0 < x / a := by positivity
  have he25 : Real.exp (1 / 25) ≤ 25 / 24 := by
    have := Real.one_sub_le_exp_neg (1 / 25)
    rw [Real.exp_neg] at this
    rw [← inv_inv (Real.exp (1 / 25)), inv_le_comm₀ (by positivity) (by norm_num)]
    refine le_trans (by norm_num) this
  rcases sg_sign a x with hs | hs
  · have hzl : zz a x = Real.log (x / a) := by rw [zz, hs, one_mul]
    have hle : zz a x ≤ Real.log (235 / 100) := by
      rw [hzl]; exact Real.log_le_log hpos (by rw [div_le_iff₀ ha]; linarith)
    rw [hs]
    refine (hh_le_hh (Or.inl rfl) (by linarith) (show zz a x + 1 / 25 ≤ Real.log (235 / 100) + 1 / 25 by linarith)).trans ?_
    rw [one_mul, hh, Real.exp_add, Real.exp_log (by norm_num)]
    have := log_235
    linarith
  · have hzl : zz a x = -Real.log (x / a) := by rw [zz, hs, neg_one_mul]
    have hle : zz a x ≤ 121 / 100 := by
      rw [hzl]
      have := Real.log_le_log (by norm_num) (show 3 / 10 ≤ x / a by rw [le_div_iff₀ ha]; exact h1.le)
      have := log_03
      linarith
    rw [hs]
    refine (hh_le_hh (Or.inr rfl) (by linarith) (show zz a x + 1 / 25 ≤ 125 / 100 by linarith)).trans ?_
    rw [hh, neg_one_mul, Real.exp_neg]
    have h3 : (3 : ℝ) ≤ Real.exp (125 / 100) := by
      have := Real.quadratic_le_exp_of_nonneg (x := 125 / 100) (by norm_num)
      refine le_trans (by norm_num) this
    have h4 : (Real.exp (125 / 100))⁻¹ ≤ 3 / 10 + 11 / 1000 := by
      have h5 : (1 : ℝ) + 125 / 100 + (125 / 100) ^ 2 / 2 + (125 / 100) ^ 3 / 6 ≤ Real.exp (125 / 100) := by
        have := Real.sum_le_exp_of_nonneg (x := 125 / 100) (by norm_num) 4
        simp only [Finset.sum_range_succ, Finset.sum_range_zero, Nat.factorial] at this
        norm_num at this ⊢
        linarith
      rw [inv_le_comm₀ (Real.exp_pos _) (by norm_num)]
      refine le_trans (by norm_num) h5
    linarith

theorem hh_central (ha : 0 < a) (h1 : 3 / 10 * a < x) (h2 : x < 235 / 100 * a) : hh (sg a x * zz a x) ≤ 5618 / 10000 :=
  (hh_le_hh (sg_sign a x) (zz_nonneg ha (by nlinarith)) (by linarith)).trans (hh_shift ha h1 h2)

theorem tt_central (ha : 0 < a) (h1 : 3 / 10 * a < x) (h2 : x < 235 / 100 * a) : tt (sg a x) (zz a x) ≤ 53 / 50 := by
  refine le_of_sq_le_sq ?_ (by norm_num)
  rw [tt_sq]
  have := hh_central ha h1 h2
  linarith

/-! ### The error of `η` -/

theorem G_lipschitz {F : List ℚ} {B : List ℝ} (ha : 0 < a) (hD : 49 / 50 ≤ 1 + B.getD 1 0 / a) (h : Corr a F B) (hF : ev (pabs F) 1 ≤ 3 / 2)
    {ε m M e : ℝ} (he : Sign e) (hε : 0 ≤ ε) (hε1 : ε ≤ 1 / 100) (hM0 : 0 ≤ M) (hM : M ≤ 1 / 400) (hm : |m - M| ≤ ε * M) :
    |G a B (e * Real.sqrt (2 * m)) - G a B (e * Real.sqrt (2 * M))| ≤ 3 / 10 * ε := by
  have hD0 : 0 < 1 + B.getD 1 0 / a := by linarith
  obtain ⟨m1, m2⟩ := abs_le.1 hm
  have hm99 : 99 / 100 * M ≤ m := by nlinarith
  have hm101 : m ≤ 2 * M := by nlinarith
  rcases hM0.eq_or_lt with hz | hMp
  · have : m = 0 := by rw [← hz] at hm; simpa using hm
    rw [this, ← hz]
    simp; positivity
  have hm0 : 0 < m := by nlinarith
  obtain ⟨S, hS⟩ : ∃ S, S = Real.sqrt (2 * M) := ⟨_, rfl⟩
  obtain ⟨s, hs⟩ : ∃ s, s = Real.sqrt (2 * m) := ⟨_, rfl⟩
  have hS2 : S ^ 2 = 2 * M := by rw [hS]; exact Real.sq_sqrt (by positivity)
  have hs2 : s ^ 2 = 2 * m := by rw [hs]; exact Real.sq_sqrt (by positivity)
  have hSp : 0 < S := by rw [hS]; positivity
  have hsp : 0 < s := by rw [hs]; positivity
  rw [← hS, ← hs]
  have hdiff : |s - S| ≤ 51 / 100 * ε * S := by
    have hs99 : 99 / 100 * S ≤ s := by
      refine le_of_sq_le_sq ?_ hsp.le
      nlinarith
    have h1 : (s - S) * (s + S) = 2 * (m - M) := by linear_combination hs2 - hS2
    have h2 : |s - S| * (s + S) ≤ ε * S ^ 2 := by
      rw [← abs_of_pos (show 0 < s + S by linarith), ← abs_mul, h1, abs_mul, abs_of_pos (by norm_num : (0:ℝ) < 2), hS2]
      linarith
    have h3 : |s - S| * (199 / 100 * S) ≤ ε * S ^ 2 := (mul_le_mul_of_nonneg_left (by linarith) (abs_nonneg _)).trans h2
    have h4 : |s - S| * (199 / 100) ≤ ε * S := by
      by_contra hc
      push Not at hc
      have := mul_lt_mul_of_pos_right hc hSp
      nlinarith
    nlinarith
  -- bound of the derivative
  have hbound : ∀ t ∈ uIcc (e * S) (e * s), ‖-(ct a B * Real.exp (-(a * t ^ 2 / 2)) * evr F t)‖ ≤ ct a B * Real.exp (-(a * (99 / 100 * S ^ 2) / 2)) * (3 / 2) := by
    intro t ht
    have ht2 : 99 / 100 * S ^ 2 ≤ t ^ 2 ∧ |t| ≤ 1 := by
      have hmin : ∃ u, t = e * u ∧ min S s ≤ u ∧ u ≤ max S s := by
        refine ⟨e * t, by rw [← mul_assoc, he.sq, one_mul], ?_⟩
        rcases he with rfl | rfl
        · rw [one_mul, one_mul] at ht
          rw [one_mul]
          exact ht
        · rw [mem_uIcc] at ht
          rcases ht with ⟨t1, t2⟩ | ⟨t1, t2⟩
          · exact ⟨(min_le_right _ _).trans (by linarith), le_trans (by linarith) (le_max_left _ _)⟩
          · exact ⟨(min_le_left _ _).trans (by linarith), le_trans (by linarith) (le_max_right _ _)⟩
      obtain ⟨u, rfl, u1, u2⟩ := hmin
      have hu0 : 0 < u := (lt_min hSp hsp).trans_le u1
      constructor
      · rw [mul_pow, pow_two e, he.sq, one_mul]
        rcases le_total S s with h | h
        · rw [min_eq_left h] at u1
          nlinarith
        · rw [min_eq_right h] at u1
          have : s ^ 2 ≤ u ^ 2 := pow_le_pow_left₀ hsp.le u1 2
          nlinarith
      · rw [abs_mul, he.abs, one_mul, abs_of_pos hu0]
        refine u2.trans (max_le ?_ ?_)
        · refine le_of_sq_le_sq ?_ (by norm_num); nlinarith
        · refine le_of_sq_le_sq ?_ (by norm_num); nlinarith
    have hct := ct_pos (B := B) ha hD0
    rw [Real.norm_eq_abs, abs_neg, abs_mul, abs_of_pos (mul_pos hct (Real.exp_pos _))]
    refine mul_le_mul (mul_le_mul_of_nonneg_left (Real.exp_le_exp.2 ?_) hct.le) ?_ (abs_nonneg _) (by positivity)
    · nlinarith [ht2.1]
    · refine (abs_evr_le F t).trans ((evr_mono (nonneg_pabs F) (abs_nonneg t) ht2.2).trans ?_)
      have := evr_rat (pabs F) 1
      rw [Rat.cast_one] at this
      rw [this]
      have h3 : ((ev (pabs F) 1 : ℚ) : ℝ) ≤ ((3 / 2 : ℚ) : ℝ) := by exact_mod_cast hF
      refine h3.trans_eq (by norm_num)
  have hmv := (convex_uIcc (e * S) (e * s)).norm_image_sub_le_of_norm_hasDerivWithin_le
    (fun t _ => (hasDerivAt_G ha hD0 h t).hasDerivWithinAt) hbound left_mem_uIcc right_mem_uIcc
  rw [Real.norm_eq_abs, Real.norm_eq_abs, ← mul_sub, abs_mul, he.abs, one_mul] at hmv
  refine hmv.trans ?_
  -- numbers
  obtain ⟨y, hy⟩ : ∃ y, y = Real.sqrt a * S := ⟨_, rfl⟩
  have hy0 : 0 < y := by rw [hy]; positivity
  have hy2 : y ^ 2 = a * S ^ 2 := by rw [hy, mul_pow, Real.sq_sqrt ha.le]
  have hexp : y * Real.exp (-(a * (99 / 100 * S ^ 2) / 2)) ≤ 1 / (14 / 10) := by
    rw [show a * (99 / 100 * S ^ 2) / 2 = 495 / 1000 * y ^ 2 by rw [hy2]; ring, Real.exp_neg, ← div_eq_mul_inv]
    have h1 := Real.add_one_le_exp (495 / 1000 * y ^ 2)
    rw [div_le_div_iff₀ (Real.exp_pos _) (by norm_num), one_mul]
    nlinarith [sq_nonneg (y - 14 / 10)]
  have hpi : 5 / 2 ≤ Real.sqrt (2 * Real.pi) := by
    refine Real.le_sqrt_of_sq_le ?_
    have := Real.pi_gt_d2
    norm_num at this ⊢
    linarith
  have hctS : ct a B * S ≤ y * (2 / 5) * (50 / 49) := by
    rw [ct, hy, div_div, div_mul_eq_mul_div]
    rw [div_le_iff₀ (by positivity)]
    have h1 : 5 / 2 * (49 / 50) ≤ Real.sqrt (2 * Real.pi) * (1 + B.getD 1 0 / a) := mul_le_mul hpi hD (by norm_num) (by positivity)
    have h2 : 0 < Real.sqrt a * S := by positivity
    nlinarith
  have hE := Real.exp_pos (-(a * (99 / 100 * S ^ 2) / 2))
  calc ct a B * Real.exp (-(a * (99 / 100 * S ^ 2) / 2)) * (3 / 2) * |s - S|
      ≤ ct a B * Real.exp (-(a * (99 / 100 * S ^ 2) / 2)) * (3 / 2) * (51 / 100 * ε * S) := by
        have := ct_pos (B := B) ha hD0
        exact mul_le_mul_of_nonneg_left hdiff (by positivity)
    _ = (ct a B * S) * (Real.exp (-(a * (99 / 100 * S ^ 2) / 2)) * (3 / 2) * (51 / 100 * ε)) := by ring
    _ ≤ (y * (2 / 5) * (50 / 49)) * (Real.exp (-(a * (99 / 100 * S ^ 2) / 2)) * (3 / 2) * (51 / 100 * ε)) :=
        mul_le_mul_of_nonneg_right hctS (by positivity)
    _ = (y * Real.exp (-(a * (99 / 100 * S ^ 2) / 2))) * ((2 / 5) * (50 / 49) * (3 / 2) * (51 / 100)) * ε := by ring
    _ ≤ 1 / (14 / 10) * ((2 / 5) * (50 / 49) * (3 / 2) * (51 / 100)) * ε :=
        mul_le_mul_of_nonneg_right (mul_le_mul_of_nonneg_right hexp (by norm_num)) hε
    _ ≤ 3 / 10 * ε := mul_le_mul_of_nonneg_right (by norm_num) hε

/-! ### A sum that ends early -/

theorem ev_take (B : List ℝ) (s : ℝ) : ∀ k, ev B s = ev (B.take k) s + s ^ k * ev (B.drop k) s := by
  induction B with
  | nil => simp [ev]
  | cons b B ih =>
    intro k
    cases k with
    | zero => simp [ev]
    | succ k => rw [List.take_succ_cons, List.drop_succ_cons, ev, ev, ih k]; ring

theorem abs_ev_le {l : List ℝ} {lq : List ℚ} (h : List.Forall₂ (fun (x : ℝ) (y : ℚ) => |x| ≤ (y : ℝ)) l lq) (s : ℝ) : |ev l s| ≤ evr lq |s| := by
  induction h with
  | nil => simp [ev]
  | cons h _ ih =>
    rw [ev, evr_cons]
    refine (abs_add_le _ _).trans (add_le_add h ?_)
    rw [abs_mul]
    exact mul_le_mul_of_nonneg_left ih (abs_nonneg s)

theorem nonneg_of_bound {l : List ℝ} {lq : List ℚ} (h : List.Forall₂ (fun (x : ℝ) (y : ℚ) => |x| ≤ (y : ℝ)) l lq) : nonneg lq := by
  induction h with
  | nil => intro c hc; simp at hc
  | cons h _ ih => exact nonneg_cons (by exact_mod_cast (abs_nonneg _).trans h) ih

theorem forall₂_drop {l : List ℝ} {lq : List ℚ} (h : List.Forall₂ (fun (x : ℝ) (y : ℚ) => |x| ≤ (y : ℝ)) l lq) : ∀ k,
    List.Forall₂ (fun (x : ℝ) (y : ℚ) => |x| ≤ (y : ℝ)) (l.drop k) (lq.drop k) := by
  induction h with
  | nil => intro k; simp
  | cons h h' ih =>
    intro k
    cases k with
    | zero => exact .cons h h'
    | succ k => exact ih k

theorem corr_early {a0 : ℚ} (h0 : 9 ≤ a0) (ha : (a0 : ℝ) ≤ a) {n p : ℕ} (hp : 2 * p - 1 < n) (hp0 : 1 ≤ p) (hlen : (Bn a n).length = n)
    (hD : 49 / 50 ≤ 1 + (Bn a n).getD 1 0 / a) (hzero : (Bn a n).getD (2 * p - 1) 0 = 0) {s : ℝ} (hs : |s| ≤ 53 / 50) {q : ℚ}
    (hq : ev ((Bq a0 n).drop (2 * p)) (53 / 50) * (p.factorial * (2 / a0) ^ p) ≤ q) :
    |corr a (Bn a n) n s - corr a (Bn a n) (2 * p - 1) s| ≤ q * (20 / 147) := by
  have h0' : (9 : ℝ) ≤ a0 := by exact_mod_cast h0
  have h0p : (0 : ℚ) < a0 := by linarith
  have ha0 : 0 < a := by linarith
  have hbd := Bn_bound h0p ha n
  have hD0 : 0 < 1 + (Bn a n).getD 1 0 / a := by linarith
  have e1 : ev ((Bn a n).take n) s = ev ((Bn a n).take (2 * p - 1)) s + s ^ (2 * p) * ev ((Bn a n).drop (2 * p)) s := by
    have : (Bn a n).take n = Bn a n := by rw [List.take_of_length_le hlen.le]
    rw [this, ev_take (Bn a n) s (2 * p - 1)]
    congr 1
    have h1 : (Bn a n).drop (2 * p - 1) = 0 :: (Bn a n).drop (2 * p) := by
      rw [List.drop_eq_getElem_cons (by rw [hlen]; exact hp), show 2 * p - 1 + 1 = 2 * p by omega]
      congr 1
      rw [List.getD_eq_getElem?_getD, List.getElem?_eq_getElem (by rw [hlen]; exact hp)] at hzero
      simpa using hzero
    rw [h1, ev, zero_add, ← mul_assoc, ← pow_succ, show 2 * p - 1 + 1 = 2 * p by omega]
  have e2 : |ev ((Bn a n).drop (2 * p)) s| ≤ (ev ((Bq a0 n).drop (2 * p)) (53 / 50) : ℚ) := by
    have h1 := forall₂_drop hbd (2 * p)
    refine (abs_ev_le h1 s).trans ?_
    rw [← evr_rat]
    refine evr_mono (nonneg_of_bound h1) (abs_nonneg s) (hs.trans_eq (by norm_num))
  have e3 : s ^ (2 * p) * Real.exp (-(a * s ^ 2 / 2)) ≤ p.factorial * (2 / a0) ^ p := by
    have h1 := Real.pow_div_factorial_le_exp (a * s ^ 2 / 2) (by positivity) p
    rw [div_le_iff₀ (by positivity)] at h1
    rw [Real.exp_neg, ← div_eq_mul_inv, div_le_iff₀ (Real.exp_pos _), pow_mul]
    have h2 : (2 / (a0 : ℝ)) ^ p * (a * s ^ 2 / 2) ^ p ≤ (2 / (a0 : ℝ)) ^ p * (Real.exp (a * s ^ 2 / 2) * p.factorial) :=
      mul_le_mul_of_nonneg_left h1 (by positivity)
    have h3 : (s ^ 2) ^ p ≤ (2 / (a0 : ℝ)) ^ p * (a * s ^ 2 / 2) ^ p := by
      rw [← mul_pow]
      refine pow_le_pow_left₀ (by positivity) ?_ p
      rw [show 2 / (a0 : ℝ) * (a * s ^ 2 / 2) = a / a0 * s ^ 2 by field_simp]
      have : 1 ≤ a / (a0 : ℝ) := (one_le_div (by linarith)).2 ha
      nlinarith [sq_nonneg s]
    refine h3.trans (h2.trans_eq ?_)
    ring
  have hpi : 5 / 2 ≤ Real.sqrt (2 * Real.pi) := by
    refine Real.le_sqrt_of_sq_le ?_
    have := Real.pi_gt_d2
    norm_num at this ⊢
    linarith
  have hsa : 3 ≤ Real.sqrt a := Real.le_sqrt_of_sq_le (by linarith)
  have e4 : corr a (Bn a n) n s - corr a (Bn a n) (2 * p - 1) s
      = (ev ((Bn a n).drop (2 * p)) s * (s ^ (2 * p) * Real.exp (-(a * s ^ 2 / 2)))) / ((1 + (Bn a n).getD 1 0 / a) * Real.sqrt a * Real.sqrt (2 * Real.pi)) := by
    rw [corr, corr, e1]
    have : Real.sqrt (2 * Real.pi) ≠ 0 := by positivity
    have : Real.sqrt a ≠ 0 := by positivity
    field_simp
    ring
  have hs2p : 0 ≤ s ^ (2 * p) := by rw [pow_mul]; positivity
  have e5 : |ev ((Bn a n).drop (2 * p)) s * (s ^ (2 * p) * Real.exp (-(a * s ^ 2 / 2)))| ≤ q := by
    rw [abs_mul, abs_of_nonneg (mul_nonneg hs2p (Real.exp_pos _).le)]
    refine (mul_le_mul e2 e3 (mul_nonneg hs2p (Real.exp_pos _).le) ((abs_nonneg _).trans e2)).trans ?_
    have := (Rat.cast_le (K := ℝ)).2 hq
    push_cast at this
    exact this
  have hden : 147 / 20 ≤ (1 + (Bn a n).getD 1 0 / a) * Real.sqrt a * Real.sqrt (2 * Real.pi) := by
    have h1 : 49 / 50 * 3 ≤ (1 + (Bn a n).getD 1 0 / a) * Real.sqrt a := mul_le_mul hD hsa (by norm_num) hD0.le
    have h2 := mul_le_mul h1 hpi (by norm_num) (by positivity)
    linarith
  rw [e4, abs_div, abs_of_pos (by linarith : 0 < (1 + (Bn a n).getD 1 0 / a) * Real.sqrt a * Real.sqrt (2 * Real.pi))]
  have hq0 : (0 : ℝ) ≤ q := (abs_nonneg _).trans e5
  rw [div_le_iff₀ (by linarith)]
  nlinarith

/-! ### The three types -/

/-- what is known of a type -/
structure TData (L : Limits) (n : ℕ) (bad : List ℕ) : Prop where
  len : asymptLen L = n
  two : 2 ≤ n
  fifty : n < 50
  eps : 0 ≤ L.epsilon ∧ L.epsilon ≤ 1 / 100
  dig : 6 ≤ L.digits10
  one : ev (pabs (Fn n)) 1 ≤ 3 / 2
  beta1 : (Bq L.digits10 n).getD 1 0 ≤ 1 / 10
  dom : ∀ i < n, i ∉ bad → (Bq L.digits10 n).getD (i + 2) 0 * (i + 2 : ℕ) / L.digits10 < dQ (i + 1)
  abs : ∀ {a e z : ℝ} {B : List ℝ}, (L.digits10 : ℝ) ≤ a → 0 < 1 + B.getD 1 0 / a → Corr a (Fn n) B → Sign e → 0 ≤ z → tt e z ≤ 5 / 2 →
    |psi a B e z - qq a e z| ≤ 17 / 10 * L.epsilon
  rel : ∀ {a e z : ℝ} {B : List ℝ}, (L.digits10 : ℝ) ≤ a → 0 < 1 + B.getD 1 0 / a → Corr a (Fn n) B → Sign e → 0 ≤ z → tt e z ≤ 5 / 2 →
    hh (e * (z + 1 / 25)) ≤ 5618 / 10000 → |psi a B e z - qq a e z| ≤ 4096 * L.epsilon * qq a e z
  early : ∀ k ∈ bad, 9 ≤ L.digits10 ∧ ∃ p : ℕ, ∃ q : ℚ, k = 2 * p - 1 ∧ 1 ≤ p ∧ k < n ∧ (q : ℝ) * (20 / 147) ≤ 1000 * L.epsilon ∧
    ev ((Bq L.digits10 n).drop (2 * p)) (53 / 50) * (p.factorial * (2 / L.digits10) ^ p) ≤ q

set_option maxRecDepth 100000

theorem all_range {n : ℕ} {P : ℕ → Bool} (h : (List.range n).all P = true) : ∀ i < n, P i = true := fun i hi =>
  List.all_eq_true.1 h i (List.mem_range.2 hi)

theorem data_float : TData .float 11 [] where
  len := len_float
  two := by norm_num
  fifty := by norm_num
  eps := by norm_num [Limits.float]
  dig := by norm_num [Limits.float]
  one := by decide +kernel
  beta1 := by
    rw [show Limits.float.digits10 = 6 from rfl]
    decide +kernel
  dom i hi _ := by
    rw [show Limits.float.digits10 = 6 from rfl]
    exact of_decide_eq_true (all_range (n := 11) (P := fun i => decide ((Bq (6 : ℕ) 11).getD (i + 2) 0 * (i + 2 : ℕ) / (6 : ℕ) < dQ (i + 1))) (by decide +kernel) i hi)
  abs ha hD hB he hz ht := float_abs ha hD hB he hz ht
  rel ha hD hB he hz ht hh := float_rel ha hD hB he hz ht hh
  early k hk := by simp at hk

theorem data_double : TData .double 26 [15, 19, 23] where
  len := len_double
  two := by norm_num
  fifty := by norm_num
  eps := by norm_num [Limits.double]
  dig := by norm_num [Limits.double]
  one := by decide +kernel
  beta1 := by
    rw [show Limits.double.digits10 = 15 from rfl]
    decide +kernel
  dom i hi hb := by
    rw [show Limits.double.digits10 = 15 from rfl]
    have := all_range (n := 26) (P := fun i => decide (i ∉ [15, 19, 23] → (Bq (15 : ℕ) 26).getD (i + 2) 0 * (i + 2 : ℕ) / (15 : ℕ) < dQ (i + 1))) (by decide +kernel) i hi
    exact of_decide_eq_true this hb
  abs ha hD hB he hz ht := double_abs ha hD hB he hz ht
  rel ha hD hB he hz ht hh := double_rel ha hD hB he hz ht hh
  early k hk := by
    have hd : Limits.double.digits10 = 15 := rfl
    have he : Limits.double.epsilon = 2⁻¹ ^ 52 := rfl
    rw [hd, he]
    refine ⟨by norm_num, (k + 1) / 2, 7000 / 2 ^ 52, ?_⟩
    simp only [List.mem_cons, List.not_mem_nil, or_false] at hk
    rcases hk with rfl | rfl | rfl
    · exact ⟨by norm_num, by norm_num, by norm_num, by norm_num, by decide +kernel⟩
    · exact ⟨by norm_num, by norm_num, by norm_num, by norm_num, by decide +kernel⟩
    · exact ⟨by norm_num, by norm_num, by norm_num, by norm_num, by decide +kernel⟩

theorem data_long : TData .longDouble 31 [19, 23, 27] where
  len := len_long
  two := by norm_num
  fifty := by norm_num
  eps := by norm_num [Limits.longDouble]
  dig := by norm_num [Limits.longDouble]
  one := by decide +kernel
  beta1 := by
    rw [show Limits.longDouble.digits10 = 18 from rfl]
    decide +kernel
  dom i hi hb := by
    rw [show Limits.longDouble.digits10 = 18 from rfl]
    have := all_range (n := 31) (P := fun i => decide (i ∉ [19, 23, 27] → (Bq (18 : ℕ) 31).getD (i + 2) 0 * (i + 2 : ℕ) / (18 : ℕ) < dQ (i + 1))) (by decide +kernel) i hi
    exact of_decide_eq_true this hb
  abs ha hD hB he hz ht := long_abs ha hD hB he hz ht
  rel ha hD hB he hz ht hh := long_rel ha hD hB he hz ht hh
  early k hk := by
    have hd : Limits.longDouble.digits10 = 18 := rfl
    have he : Limits.longDouble.epsilon = 2⁻¹ ^ 63 := rfl
    rw [hd, he]
    refine ⟨by norm_num, (k + 1) / 2, 7000 / 2 ^ 63, ?_⟩
    simp only [List.mem_cons, List.not_mem_nil, or_false] at hk
    rcases hk with rfl | rfl | rfl
    · exact ⟨by norm_num, by norm_num, by norm_num, by norm_num, by decide +kernel⟩
    · exact ⟨by norm_num, by norm_num, by norm_num, by norm_num, by decide +kernel⟩
    · exact ⟨by norm_num, by norm_num, by norm_num, by norm_num, by decide +kernel⟩

/-! ### The result -/

theorem asympt_error {L : Limits} {n : ℕ} {bad : List ℕ} (hL : TData L n bad) (hL1 : 3 ≤ L.digits) (hL2 : 32⁻¹ ^ (L.digits - 2) ≤ L.epsilon)
    (ha : (L.digits10 : ℝ) ≤ a) (h1 : 3 / 10 * a < x) (h2 : x < 235 / 100 * a) :
    ∃ q : ℝ, gammaQAsympt L (fin a) (fin x) = fin q ∧ gammaPAsympt L (fin a) (fin x) = fin (1 - q) ∧
      |q - (1 - Spec.regGamma a x)| ≤ 1024 * L.epsilon ∧
      ((∀ i < n, (Bn a n).getD i 0 ≠ 0) → |q - (1 - Spec.regGamma a x)| ≤ 2 * L.epsilon ∧
        (a / 32 ≤ |x - a| → (x < a → |1 - q - Spec.regGamma a x| ≤ 4096 * L.epsilon * Spec.regGamma a x) ∧
          (a < x → |q - (1 - Spec.regGamma a x)| ≤ 4096 * L.epsilon * (1 - Spec.regGamma a x)))) := by
  have hdig : (6 : ℝ) ≤ L.digits10 := by exact_mod_cast hL.dig
  have ha6 : 6 ≤ a := hdig.trans ha
  have ha0 : 0 < a := by linarith
  have hx : 0 < x := by nlinarith
  have hlen := hL.len
  have hBl : (Bn a n).length = n := by rw [Bn, betaG_length]; have := hL.two; simp; omega
  have hD : 49 / 50 ≤ 1 + (Bn a n).getD 1 0 / a := by
    have hb := forall₂_getD (Bn_bound (a0 := L.digits10) (by exact_mod_cast (by have := hL.dig; omega : 0 < L.digits10)) (by exact_mod_cast ha) n) 1
    have hb1 : (((Bq L.digits10 n).getD 1 0 : ℚ) : ℝ) ≤ ((1 / 10 : ℚ) : ℝ) := by exact_mod_cast hL.beta1
    push_cast at hb1
    have h3 := (abs_le.1 (hb.trans hb1)).1
    have : -(1 / 50) ≤ (Bn a n).getD 1 0 / a := by rw [le_div_iff₀ ha0]; linarith
    linarith
  have hD0 : 0 < 1 + (Bn a n).getD 1 0 / a := by linarith
  have hB := Bn_corr a hL.two hL.fifty
  have hmu : -1 < (x - a) / a := by rw [lt_div_iff₀ ha0]; linarith
  have hM := hh_zz ha0 hx
  have hM0 := hh_nonneg (sg a x * zz a x)
  obtain ⟨m, hm, hmM⟩ := Trng.Props.C76_mln1p L (by linarith [hL.eps.2]) hL1 hL2 hmu
  rw [← hM] at hmM
  have hm0 : 0 ≤ m := by
    have := (abs_le.1 hmM).1
    have := hL.eps.2
    nlinarith
  have hsS : ∀ y : ℝ, (if (x - a) / a < 0 then -Real.sqrt y else Real.sqrt y) = sg a x * Real.sqrt y := by
    intro y; unfold sg; split <;> ring
  obtain ⟨k, hk, hk2, -, hQ, hP⟩ := eval (L := L) ha0 (hlen ▸ hL.two) (hlen ▸ hL.fifty) (by rw [hlen]; exact hD0) hm0 hm (hsS (2 * m)).symm
  rw [hlen] at hk hk2 hQ hP
  obtain ⟨s, hs⟩ : ∃ s, s = sg a x * Real.sqrt (2 * m) := ⟨_, rfl⟩
  rw [← hs] at hk2 hQ hP
  refine ⟨_, hQ, hP, ?_⟩
  -- the exact variable
  have htS : sg a x * tt (sg a x) (zz a x) = sg a x * Real.sqrt (2 * hh (sg a x * zz a x)) := rfl
  have hsign := sg_sign a x
  have hz := zz_nonneg ha0 hx
  have ht := tt_central ha0 h1 h2
  have hmexact : a / 32 ≤ |x - a| → m = hh (sg a x * zz a x) := by
    intro hfar
    have : mln1p L (fin ((x - a) / a)) = fin ((x - a) / a - Real.log (1 + (x - a) / a)) := by
      rw [mln1p, if_pos]
      · rw [ln1p_fin (by linarith), fin_sub]
      · simp only [ofNat_fin, abs_fin, Nat.cast_one, Nat.cast_ofNat]
        rw [fin_div (by norm_num), fin_le, abs_div, abs_of_pos ha0, div_le_div_iff₀ (by norm_num) ha0]
        linarith
    rw [this] at hm
    rw [hM]
    exact ((fin_inj _ _).1 hm).symm
  have hnear : ¬a / 32 ≤ |x - a| → hh (sg a x * zz a x) ≤ 1 / 400 := by
    intro hfar
    push Not at hfar
    rw [hM]
    have hmu2 : |(x - a) / a| < 1 / 32 := by rw [abs_div, abs_of_pos ha0, div_lt_div_iff₀ ha0 (by norm_num)]; linarith
    obtain ⟨l1, l2⟩ := abs_lt.1 hmu2
    obtain ⟨u, hu⟩ : ∃ u, u = (x - a) / a := ⟨_, rfl⟩
    rw [← hu] at l1 l2 ⊢
    have h3 := Real.one_sub_inv_le_log_of_pos (show 0 < 1 + u by linarith)
    have h4 : u - (1 - (1 + u)⁻¹) = u ^ 2 / (1 + u) := by field_simp [show (1 + u) ≠ 0 by linarith]; ring
    have h5 : u ^ 2 / (1 + u) ≤ 1 / 400 := by
      rw [div_le_iff₀ (by linarith)]
      nlinarith
    linarith
  have hGs : |G a (Bn a n) s - G a (Bn a n) (sg a x * tt (sg a x) (zz a x))| ≤ 3 / 10 * L.epsilon := by
    by_cases hfar : a / 32 ≤ |x - a|
    · rw [htS, hs, hmexact hfar, sub_self, abs_zero]
      have := hL.eps.1
      positivity
    · rw [htS, hs]
      exact G_lipschitz ha0 hD hB hL.one hsign hL.eps.1 hL.eps.2 hM0 (hnear hfar) hmM
  have hs53 : |s| ≤ 53 / 50 := by
    by_cases hfar : a / 32 ≤ |x - a|
    · rw [hs, hmexact hfar, ← htS, abs_mul, hsign.abs, one_mul, abs_of_nonneg (tt_nonneg _ _)]
      exact ht
    · rw [hs, abs_mul, hsign.abs, one_mul, abs_of_nonneg (Real.sqrt_nonneg _)]
      refine Real.sqrt_le_iff.2 ⟨by norm_num, ?_⟩
      have h3 := (abs_le.1 hmM).2
      have := hnear hfar
      have := hL.eps.2
      nlinarith
  have hpsi : ∀ v : ℝ, |G a (Bn a n) (sg a x * tt (sg a x) (zz a x)) - (1 - Spec.regGamma a x)| ≤ v ↔ |psi a (Bn a n) (sg a x) (zz a x) - qq a (sg a x) (zz a x)| ≤ v := by
    intro v
    have e1 : psi a (Bn a n) (sg a x) (zz a x) - qq a (sg a x) (zz a x)
        = sg a x * (G a (Bn a n) (sg a x * tt (sg a x) (zz a x)) - (1 - Spec.regGamma a x)) := by
      rw [qq_zz ha0 hx, psi]; ring
    rw [e1, abs_mul, hsign.abs, one_mul]
  have habs := (hpsi _).2 (hL.abs ha hD0 hB hsign hz (ht.trans (by norm_num)))
  have htot : |G a (Bn a n) s - (1 - Spec.regGamma a x)| ≤ 2 * L.epsilon := by
    have := abs_sub_le (G a (Bn a n) s) (G a (Bn a n) (sg a x * tt (sg a x) (zz a x))) (1 - Spec.regGamma a x)
    linarith
  have hk2' : k = (Bn a n).length ∨ (Bn a n).getD k 0 * s ^ k = 0 := by rw [hBl]; exact hk2
  have hn0 : 0 < n := by have := hL.two; omega
  constructor
  · -- in any case
    by_cases hfull : (∀ i < n, (Bn a n).getD i 0 ≠ 0)
    · rw [corr_full (by rw [hBl]; exact hn0) (by rw [hBl]; exact hfull) (by rw [hBl]; exact hk) hk2']
      refine htot.trans ?_
      have := hL.eps.1
      nlinarith
    · have hGn : G a (Bn a n) s = (1 - erfR (s * Real.sqrt (a / 2))) / 2 + corr a (Bn a n) n s := by
        rw [corr, G, List.take_of_length_le hBl.le]
      have hbnd : |((1 - erfR (s * Real.sqrt (a / 2))) / 2 + corr a (Bn a n) k s) - G a (Bn a n) s| ≤ 1000 * L.epsilon := by
        have e0 := hL.eps.1
        by_cases hkn : k = n
        · rw [hkn, hGn, sub_self, abs_zero]; positivity
        · have hlt : k < n := lt_of_le_of_ne hk hkn
          have hzero := hk2.resolve_left hkn
          by_cases hbad : (Bn a n).getD k 0 = 0
          · have hmem : k ∈ bad := by
              by_contra hnot
              exact Bn_ne_zero (a0 := L.digits10) (by exact_mod_cast (by have := hL.dig; omega : 0 < L.digits10)) (by exact_mod_cast ha) hL.two hL.fifty hlt
                (hL.dom k hlt hnot) hbad
            obtain ⟨h9, p, q, rfl, hp1, hpn, hq1, hq2⟩ := hL.early k hmem
            have := corr_early (a0 := L.digits10) (by exact_mod_cast h9) (by exact_mod_cast ha) hpn hp1 hBl hD hbad hs53 hq2
            rw [hGn, abs_sub_comm]
            refine le_trans (le_of_eq ?_) (this.trans hq1)
            congr 1; ring
          · have hs0 : s ^ k = 0 := (mul_eq_zero.1 hzero).resolve_left hbad
            have hs00 : s = 0 := by by_contra hc; exact pow_ne_zero k hc hs0
            have hk0 : k ≠ 0 := by rintro rfl; simp at hs0
            have : (1 - erfR (s * Real.sqrt (a / 2))) / 2 + corr a (Bn a n) k s = G a (Bn a n) s := by
              obtain ⟨k, rfl⟩ := Nat.exists_eq_succ_of_ne_zero hk0
              cases hBn : Bn a n with
              | nil => rw [hBn] at hBl; simp at hBl; omega
              | cons b B => rw [corr, G, hs00, List.take_succ_cons, ev, ev]; simp
            rw [this, sub_self, abs_zero]; positivity
      have := abs_sub_le ((1 - erfR (s * Real.sqrt (a / 2))) / 2 + corr a (Bn a n) k s) (G a (Bn a n) s) (1 - Spec.regGamma a x)
      have := hL.eps.1
      linarith
  · intro hfull
    rw [corr_full (by rw [hBl]; exact hn0) (by rw [hBl]; exact hfull) (by rw [hBl]; exact hk) hk2']
    refine ⟨htot, fun hfar => ?_⟩
    have hrel := (hpsi _).2 (hL.rel ha hD0 hB hsign hz (ht.trans (by norm_num)) (hh_shift ha0 h1 h2))
    rw [htS, ← hmexact hfar, ← hs, qq_zz ha0 hx] at hrel
    constructor
    · intro hxa
      have hsg : sg a x = -1 := if_pos (div_neg_of_neg_of_pos (by linarith) ha0)
      rw [hsg] at hrel
      have e1 : 1 - G a (Bn a n) s - Spec.regGamma a x = -(G a (Bn a n) s - (1 - Spec.regGamma a x)) := by ring
      rw [e1, abs_neg]
      refine hrel.trans_eq ?_
      ring
    · intro hxa
      have hsg : sg a x = 1 := if_neg (not_lt.2 (div_nonneg (by linarith) ha0.le))
      rw [hsg] at hrel
      refine hrel.trans_eq ?_
      ring

end Trng.Temme
