import Verif.Proofs.TemmeData
import Verif.Props.BetaFun

/-! The asymptotic expansion as the code computes it: the coefficients of the correction, its sum and the variable `η`. -/
namespace Trng.Temme
open Set Filter Topology Special XR

/-! ### The array of coefficients -/

/-- the loop over the coefficients, in any field -/
def betaG {R : Type} [Field R] (a : R) (d : ℕ → R) : ℕ → List R → List R
  | 0, l => l
  | i + 1, l => betaG a d i ((l.getD 1 0 * (i + 2 : ℕ) / a + d (i + 1)) :: l)

/-- The elements from `k` on are right. -/
def Good (a : ℝ) (d : ℕ → ℝ) (k : ℕ) (l : List ℝ) : Prop :=
  2 ≤ l.length ∧ ∀ j < l.length, l.getD j 0 = l.getD (j + 2) 0 * (k + j + 2 : ℕ) / a + d (k + j + 1)

theorem betaG_good (a : ℝ) (d : ℕ → ℝ) : ∀ (k : ℕ) (l : List ℝ), Good a d k l → Good a d 0 (betaG a d k l)
  | 0, l, h => h
  | i + 1, l, h => by
    rw [betaG]
    refine betaG_good a d i _ ⟨by rw [List.length_cons]; have := h.1; omega, fun j hj => ?_⟩
    cases j with
    | zero => simp
    | succ j =>
      rw [List.length_cons] at hj
      have := h.2 j (by omega)
      rw [List.getD_cons_succ, List.getD_cons_succ, this]
      congr 3 <;> [(push_cast; ring); omega]

theorem betaG_length {R : Type} [Field R] (a : R) (d : ℕ → R) : ∀ (k : ℕ) (l : List R), (betaG a d k l).length = k + l.length
  | 0, l => by simp [betaG]
  | i + 1, l => by rw [betaG, betaG_length a d i, List.length_cons]; omega

/-- bounds of the coefficients for all parameters from `a0` on -/
theorem betaG_bound {a : ℝ} {a0 : ℚ} (h0 : 0 < a0) (ha : (a0 : ℝ) ≤ a) {d : ℕ → ℝ} {dq : ℕ → ℚ} (hd : ∀ i, |d i| ≤ dq i) :
    ∀ (k : ℕ) (l : List ℝ) (lq : List ℚ), List.Forall₂ (fun (x : ℝ) (y : ℚ) => |x| ≤ (y : ℝ)) l lq →
      List.Forall₂ (fun (x : ℝ) (y : ℚ) => |x| ≤ (y : ℝ)) (betaG a d k l) (betaG a0 dq k lq)
  | 0, l, lq, h => h
  | i + 1, l, lq, h => by
    rw [betaG, betaG]
    refine betaG_bound h0 ha hd i _ _ (List.Forall₂.cons ?_ h)
    have h0' : (0 : ℝ) < a0 := by exact_mod_cast h0
    have hl : |l.getD 1 0| ≤ ((lq.getD 1 0 : ℚ) : ℝ) := by
      cases h with
      | nil => simp
      | cons _ h =>
        cases h with
        | nil => simp
        | cons h _ => simpa using h
    have h1 : |l.getD 1 0 * (i + 2 : ℕ) / a| ≤ (lq.getD 1 0 : ℚ) * (i + 2 : ℕ) / a0 := by
      rw [abs_div, abs_mul, abs_of_pos (h0'.trans_le ha), Nat.abs_cast]
      exact div_le_div₀ (mul_nonneg ((abs_nonneg _).trans hl) (by positivity)) (mul_le_mul_of_nonneg_right hl (by positivity)) h0' ha
    have h2 := abs_add_le (l.getD 1 0 * (i + 2 : ℕ) / a) (d (i + 1))
    have h3 := hd (i + 1)
    push_cast at h1 h2 ⊢
    linarith

theorem forall₂_getD {l : List ℝ} {lq : List ℚ} (h : List.Forall₂ (fun (x : ℝ) (y : ℚ) => |x| ≤ (y : ℝ)) l lq) : ∀ j, |l.getD j 0| ≤ ((lq.getD j 0 : ℚ) : ℝ) := by
  induction h with
  | nil => simp
  | cons h _ ih =>
    intro j
    cases j with
    | zero => simpa using h
    | succ j => simpa using ih j

def dR (i : ℕ) : ℝ := ((asymptCoeffs.getD i 0 : ℚ) : ℝ)
def dQ (i : ℕ) : ℚ := |asymptCoeffs.getD i 0|

/-- the array `beta` -/
noncomputable def Bn (a : ℝ) (n : ℕ) : List ℝ := betaG a dR (n - 2) [dR (n - 1), dR n]
def Bq (a0 : ℚ) (n : ℕ) : List ℚ := betaG a0 dQ (n - 2) [dQ (n - 1), dQ n]

theorem Bn_corr (a : ℝ) {n : ℕ} (h2 : 2 ≤ n) (h50 : n < 50) : Corr a (Fn n) (Bn a n) := by
  have hg : Good a dR (n - 2) [dR (n - 1), dR n] := by
    refine ⟨le_rfl, fun j hj => ?_⟩
    have : j = 0 ∨ j = 1 := by simp at hj; omega
    rcases this with rfl | rfl
    · simp; congr 1; omega
    · simp; congr 1; omega
  have hb := betaG_good a dR (n - 2) _ hg
  have hl : (Bn a n).length = n := by rw [Bn, betaG_length]; simp; omega
  have hlen : asymptCoeffs.length = 50 := by decide
  refine ⟨by rw [hl]; exact h2, ?_, ?_, fun i hi => ?_⟩
  · rw [hl, Fn, List.length_take, hlen]; omega
  · rw [Fn]
    cases n with
    | zero => omega
    | succ n => rfl
  · rw [hl] at hi
    have := hb.2 i (by rw [show (betaG a dR (n - 2) [dR (n - 1), dR n]).length = n from hl]; exact hi)
    rw [zero_add] at this
    refine this.trans ?_
    congr 1
    rw [dR, Fn]
    congr 1
    simp only [List.getD_eq_getElem?_getD]
    rw [List.getElem?_take, if_pos (by omega)]

theorem Bn_bound {a : ℝ} {a0 : ℚ} (h0 : 0 < a0) (ha : (a0 : ℝ) ≤ a) (n : ℕ) : List.Forall₂ (fun (x : ℝ) (y : ℚ) => |x| ≤ (y : ℝ)) (Bn a n) (Bq a0 n) := by
  have hd : ∀ i, |dR i| ≤ dQ i := fun i => by rw [dR, dQ, Rat.cast_abs]
  exact betaG_bound h0 ha hd _ _ _ (.cons (hd _) (.cons (hd _) .nil))

/-- A coefficient does not vanish if its first part dominates. -/
theorem Bn_ne_zero {a : ℝ} {a0 : ℚ} (h0 : 0 < a0) (ha : (a0 : ℝ) ≤ a) {n : ℕ} (h2 : 2 ≤ n) (h50 : n < 50) {i : ℕ} (hi : i < n)
    (hdom : (Bq a0 n).getD (i + 2) 0 * (i + 2 : ℕ) / a0 < dQ (i + 1)) : (Bn a n).getD i 0 ≠ 0 := by
  have hl : (Bn a n).length = n := by rw [Bn, betaG_length]; simp; omega
  have hr := (Bn_corr a h2 h50).rel i (by rw [hl]; exact hi)
  have hF : ((Fn n).getD (i + 1) 0) = asymptCoeffs.getD (i + 1) 0 := by
    rw [Fn]; simp only [List.getD_eq_getElem?_getD]; rw [List.getElem?_take, if_pos (by omega)]
  rw [hF] at hr
  have h0' : (0 : ℝ) < a0 := by exact_mod_cast h0
  have hb := forall₂_getD (Bn_bound h0 ha n) (i + 2)
  have hdom' : ((Bq a0 n).getD (i + 2) 0 : ℝ) * (i + 2 : ℕ) / a0 < |((asymptCoeffs.getD (i + 1) 0 : ℚ) : ℝ)| := by
    have := (Rat.cast_lt (K := ℝ)).2 hdom
    rw [dQ, Rat.cast_abs] at this
    push_cast at this ⊢
    exact this
  have h1 : |(Bn a n).getD (i + 2) 0 * (i + 2 : ℕ) / a| ≤ ((Bq a0 n).getD (i + 2) 0 : ℚ) * (i + 2 : ℕ) / a0 := by
    rw [abs_div, abs_mul, abs_of_pos (h0'.trans_le ha), Nat.abs_cast]
    exact div_le_div₀ (mul_nonneg ((abs_nonneg _).trans hb) (by positivity)) (mul_le_mul_of_nonneg_right hb (by positivity)) h0' ha
  intro hz
  rw [hz] at hr
  have h3 : ((asymptCoeffs.getD (i + 1) 0 : ℚ) : ℝ) = -((Bn a n).getD (i + 2) 0 * (i + 2 : ℕ) / a) := by linarith
  rw [h3, abs_neg] at hdom'
  exact absurd h1 (not_le.2 hdom')

theorem asymptGet_eq {i : ℕ} (h : i < 50) : asymptGet i = fin (dR i) := by
  have hlen : asymptCoeffs.length = 50 := by decide
  rw [asymptGet, dR, List.getD_eq_getElem?_getD]
  rw [List.getElem?_eq_getElem (by omega)]
  simp

theorem asymptBetaLoop_eq {a : ℝ} (ha : a ≠ 0) : ∀ (k : ℕ) (l : List ℝ), 2 ≤ l.length → k + 2 < 50 →
    asymptBetaLoop (fin a) k (l.map fin) = (betaG a dR k l).map fin
  | 0, l, _, _ => rfl
  | i + 1, l, h, hk => by
    obtain ⟨x, y, l, rfl⟩ : ∃ x y l', l = x :: y :: l' := by
      match l, h with
      | x :: y :: l, _ => exact ⟨x, y, l, rfl⟩
    rw [asymptBetaLoop, betaG, ← asymptBetaLoop_eq ha i _ (by simp) (by omega)]
    simp only [List.map_cons, List.getElem?_cons_succ, List.getElem?_cons_zero, Option.getD_some, List.getD_cons_succ, List.getD_cons_zero]
    rw [asymptGet_eq (by omega), fin_mul, fin_div ha, fin_add]

/-! ### The sum -/

theorem asymptSum_eq (η : ℝ) : ∀ (l : List ℝ) (p y : ℝ), ∃ k ≤ l.length,
    asymptSum (fin η) (l.map fin) (fin p) (fin y) = fin (y + p * ev (l.take k) η) ∧ (k = l.length ∨ l.getD k 0 * (p * η ^ k) = 0) ∧
      ∀ i < k, l.getD i 0 * (p * η ^ i) ≠ 0
  | [], p, y => ⟨0, le_rfl, by simp [asymptSum, ev], Or.inl rfl, fun i hi => absurd hi (by omega)⟩
  | b :: l, p, y => by
    rw [List.map_cons, asymptSum]
    simp only [fin_mul, fin_add, fin_eq]
    by_cases hb : y + b * p = y
    · rw [if_pos hb]
      refine ⟨0, by simp, ?_, Or.inr ?_, fun i hi => absurd hi (by omega)⟩
      · rw [hb]; simp [ev]
      · simp; simpa using hb
    · rw [if_neg hb]
      obtain ⟨k, hk, h1, h2, h3⟩ := asymptSum_eq η l (p * η) (y + b * p)
      refine ⟨k + 1, by simpa using hk, ?_, ?_, ?_⟩
      · rw [h1, List.take_succ_cons, ev]
        congr 1; ring
      · rcases h2 with h2 | h2
        · left; simp [h2]
        · right
          rw [List.getD_cons_succ, pow_succ]; linear_combination h2
      · intro i hi h0
        cases i with
        | zero => rw [List.getD_cons_zero, pow_zero, mul_one] at h0; exact hb (by rw [h0, add_zero])
        | succ i =>
          refine h3 i (by omega) ?_
          rw [List.getD_cons_succ, pow_succ] at h0; linear_combination h0

/-! ### The length of the array -/

/-- `asymptMaxIndex` with rational numbers -/
def maxQ (q : ℚ) : ℕ → ℕ
  | 0 => 0
  | i + 1 => if q < dQ i then i + 1 else maxQ q i

theorem asymptMaxIndex_eq {L : Limits} {q : ℚ} (hq : L.epsilon = q) : ∀ k ≤ 50, asymptMaxIndex L k = maxQ q k
  | 0, _ => rfl
  | i + 1, h => by
    rw [asymptMaxIndex, maxQ, asymptMaxIndex_eq hq i (by omega), asymptGet_eq (by omega), abs_fin]
    have e : fin L.epsilon < fin |dR i| ↔ q < dQ i := by
      rw [fin_lt, hq, dR, dQ, ← Rat.cast_abs, Rat.cast_lt]
    by_cases h1 : q < dQ i
    · rw [if_pos h1, if_pos (e.2 h1)]
    · rw [if_neg h1, if_neg (fun h => h1 (e.1 h))]

theorem asymptLen_eq {L : Limits} {q : ℚ} (hq : L.epsilon = q) : asymptLen L = maxQ q 50 - 1 := by
  rw [asymptLen, show asymptCoeffs.length = 50 by decide, asymptMaxIndex_eq hq 50 le_rfl]

theorem len_float : asymptLen .float = 11 := by
  rw [asymptLen_eq (q := 1 / 2 ^ 23) (by simp [Limits.float])]; decide +kernel
theorem len_double : asymptLen .double = 26 := by
  rw [asymptLen_eq (q := 1 / 2 ^ 52) (by simp [Limits.double])]; decide +kernel
theorem len_long : asymptLen .longDouble = 31 := by
  rw [asymptLen_eq (q := 1 / 2 ^ 63) (by simp [Limits.longDouble])]; decide +kernel

theorem asymptBeta_eq {L : Limits} {a : ℝ} (ha : a ≠ 0) (h2 : 2 ≤ asymptLen L) (h50 : asymptLen L < 50) :
    asymptBeta L (fin a) = (Bn a (asymptLen L)).map fin := by
  rw [asymptBeta, Bn]
  rw [← asymptBetaLoop_eq ha _ _ (by simp) (by omega), asymptGet_eq (by omega), asymptGet_eq h50]
  rfl

/-! ### The functions -/

/-- the sum up to `k` -/
noncomputable def corr (a : ℝ) (B : List ℝ) (k : ℕ) (s : ℝ) : ℝ :=
  ev (B.take k) s / (1 + B.getD 1 0 / a) * Real.exp (-(a * s ^ 2 / 2)) / Real.sqrt a * (1 / Real.sqrt (2 * Real.pi))

theorem eval {L : Limits} {a x m : ℝ} (ha : 0 < a) (h2 : 2 ≤ asymptLen L) (h50 : asymptLen L < 50)
    (hD : 0 < 1 + (Bn a (asymptLen L)).getD 1 0 / a) (hm0 : 0 ≤ m) (hm : mln1p L (fin ((x - a) / a)) = fin m)
    {s : ℝ} (hs : s = if (x - a) / a < 0 then -Real.sqrt (2 * m) else Real.sqrt (2 * m)) :
    ∃ k ≤ asymptLen L, (k = asymptLen L ∨ (Bn a (asymptLen L)).getD k 0 * s ^ k = 0) ∧ (∀ i < k, (Bn a (asymptLen L)).getD i 0 * s ^ i ≠ 0) ∧
      gammaQAsympt L (fin a) (fin x) = fin ((1 - erfR (s * Real.sqrt (a / 2))) / 2 + corr a (Bn a (asymptLen L)) k s) ∧
      gammaPAsympt L (fin a) (fin x) = fin (1 - ((1 - erfR (s * Real.sqrt (a / 2))) / 2 + corr a (Bn a (asymptLen L)) k s)) := by
  have hl : (Bn a (asymptLen L)).length = asymptLen L := by rw [Bn, betaG_length]; simp; omega
  obtain ⟨k, hk, h1, h3, h4⟩ := asymptSum_eq s (Bn a (asymptLen L)) 1 0
  rw [hl] at hk h3
  rw [one_mul] at h3
  simp only [one_mul] at h4
  refine ⟨k, hk, h3, h4, ?_⟩
  have hmu : (fin x - fin a) / fin a = fin ((x - a) / a) := by rw [fin_sub, fin_div ha.ne']
  have h2m : (0 : ℝ) ≤ 2 * m := by positivity
  have heta : XR.copysign (XR.sqrt (2 * fin m)) (fin ((x - a) / a)) = fin s := by
    simp only [ofNat_fin, fin_mul]
    rw [show ((2 : ℕ) : ℝ) * m = 2 * m by norm_num, sqrt_fin h2m, XR.copysign, abs_fin, abs_of_nonneg (Real.sqrt_nonneg _), hs, neg_fin]
    simp only [ofNat_fin, fin_lt, Nat.cast_zero]
    split <;> rfl
  have hsm : s ^ 2 / 2 = m := by
    have : s ^ 2 = Real.sqrt (2 * m) ^ 2 := by rw [hs]; split <;> ring
    rw [this, Real.sq_sqrt h2m]; ring
  have hsq : XR.sqrt (fin a / 2) = fin (Real.sqrt (a / 2)) := by
    simp only [ofNat_fin]; rw [fin_div (by norm_num), sqrt_fin (by positivity)]; norm_num
  have hbeta1 : (asymptBeta L (fin a))[1]?.getD nan = fin ((Bn a (asymptLen L)).getD 1 0) := by
    rw [asymptBeta_eq ha.ne' h2 h50, List.getElem?_map, List.getD_eq_getElem?_getD, List.getElem?_eq_getElem (by rw [hl]; omega)]
    simp
  have hR : asymptR L (fin a) (fin s) (fin m) = fin (corr a (Bn a (asymptLen L)) k s) := by
    rw [asymptR]
    simp only [hbeta1]
    rw [asymptBeta_eq ha.ne' h2 h50]
    have e0 : asymptSum (fin s) ((Bn a (asymptLen L)).map fin) 1 0 = fin (ev ((Bn a (asymptLen L)).take k) s) := by
      have : (1 : XR) = fin 1 := by simp
      have h0 : (0 : XR) = fin 0 := by simp
      rw [this, h0, h1]; congr 1; ring
    rw [e0, fin_div ha.ne', ofNat_fin, Nat.cast_one, fin_add, fin_div hD.ne', neg_fin, fin_mul, exp_fin, fin_mul, sqrt_fin ha.le,
      fin_div (by positivity), oneOverSqrt2pi, fin_mul, corr]
    congr 5
    rw [← hsm]; ring
  constructor
  · rw [gammaQAsympt]
    simp only [hmu, hm, heta, hsq, hR]
    simp only [fin_mul, erfc_fin, ofNat_fin]
    rw [fin_div (by norm_num), fin_add]; norm_num
  · rw [gammaPAsympt]
    simp only [hmu, hm, heta, hsq, hR]
    simp only [fin_mul, erfc_fin, ofNat_fin, neg_fin]
    rw [fin_div (by norm_num), fin_add, neg_mul, erfR_neg]
    congr 1
    push_cast
    ring

/-- Without a vanishing coefficient the sum is complete. -/
theorem corr_full {a s : ℝ} {B : List ℝ} {k : ℕ} (hB : 0 < B.length) (hnz : ∀ i < B.length, B.getD i 0 ≠ 0) (hk : k ≤ B.length)
    (h : k = B.length ∨ B.getD k 0 * s ^ k = 0) : (1 - erfR (s * Real.sqrt (a / 2))) / 2 + corr a B k s = G a B s := by
  rcases h with h | h
  · rw [h, corr, G, List.take_length]
  · rcases hk.eq_or_lt with h1 | h1
    · rw [h1, corr, G, List.take_length]
    · rcases mul_eq_zero.1 h with h | h
      · exact absurd h (hnz k h1)
      · have hs : s = 0 := by by_contra hc; exact pow_ne_zero k hc h
        have hk0 : k ≠ 0 := by rintro rfl; simp at h
        obtain ⟨k, rfl⟩ := Nat.exists_eq_succ_of_ne_zero hk0
        cases B with
        | nil => simp at hB
        | cons b B => rw [corr, G, hs, List.take_succ_cons, ev, ev]; simp

end Trng.Temme
