import Verif.Proofs.TemmeErr
import Verif.Model.GammaAsympt
import Mathlib.Analysis.Complex.ExponentialBounds

/-! The bounds of the expansion for the coefficients of the code. -/
namespace Trng.Temme
open Set Filter Topology Special

/-- the polynomial whose coefficients the code uses -/
def Fn (n : ℕ) : List ℚ := asymptCoeffs.take (n + 1)

/-! ### Conditions that a computation decides -/

theorem range_ok {c0 c1 c2 c3 : ℚ} {rest : List ℚ} (h0 : c0 = 1) (h1 : |c1 + 1 / 3| ≤ 1 / 10 ^ 9) (h2 : |c2 - 1 / 12| ≤ 1 / 10 ^ 9)
    (h3 : |c3 + 2 / 135| ≤ 1 / 10 ^ 9) (hr : (5 / 2) ^ 4 * ev (pabs rest) (5 / 2) ≤ 2 / 5) {s : ℝ} (hs : |s| ≤ ((5 / 2 : ℚ) : ℝ)) :
    0 ≤ evr (c0 :: c1 :: c2 :: c3 :: rest) s ∧ evr (c0 :: c1 :: c2 :: c3 :: rest) s ≤ 3 := by
  have h52 : ((5 / 2 : ℚ) : ℝ) = 5 / 2 := by norm_num
  have hq : |s ^ 4 * evr rest s| ≤ 2 / 5 := by
    rw [abs_mul, abs_pow]
    have e1 := abs_evr_le rest s
    have e2 := e1.trans (evr_mono (nonneg_pabs rest) (abs_nonneg s) hs)
    have e3 : |s| ^ 4 ≤ (5 / 2 : ℝ) ^ 4 := pow_le_pow_left₀ (abs_nonneg s) (by rw [← h52]; exact hs) 4
    have e4 := mul_le_mul e3 e2 (abs_nonneg _) (by positivity)
    refine e4.trans ?_
    rw [evr_rat]
    have : (((5 / 2) ^ 4 * ev (pabs rest) (5 / 2) : ℚ) : ℝ) ≤ ((2 / 5 : ℚ) : ℝ) := by exact_mod_cast hr
    push_cast at this
    exact this
  rw [h52] at hs
  obtain ⟨l1, l2⟩ := abs_le.1 hs
  have b1 : |(c1 : ℝ) + 1 / 3| ≤ 1 / 10 ^ 9 := by
    have := (Rat.cast_le (K := ℝ)).2 h1
    rw [Rat.cast_abs] at this
    push_cast at this
    exact this
  have b2 : |(c2 : ℝ) - 1 / 12| ≤ 1 / 10 ^ 9 := by
    have := (Rat.cast_le (K := ℝ)).2 h2
    rw [Rat.cast_abs] at this
    push_cast at this
    exact this
  have b3 : |(c3 : ℝ) + 2 / 135| ≤ 1 / 10 ^ 9 := by
    have := (Rat.cast_le (K := ℝ)).2 h3
    rw [Rat.cast_abs] at this
    push_cast at this
    exact this
  have p1 : |((c1 : ℝ) + 1 / 3) * s| ≤ 1 / 10 ^ 8 := by
    rw [abs_mul]; exact (mul_le_mul b1 hs (abs_nonneg _) (by positivity)).trans (by norm_num)
  have p2 : |((c2 : ℝ) - 1 / 12) * s ^ 2| ≤ 1 / 10 ^ 8 := by
    rw [abs_mul, abs_pow]; exact (mul_le_mul b2 (pow_le_pow_left₀ (abs_nonneg _) hs 2) (by positivity) (by positivity)).trans (by norm_num)
  have p3 : |((c3 : ℝ) + 2 / 135) * s ^ 3| ≤ 2 / 10 ^ 8 := by
    rw [abs_mul, abs_pow]; exact (mul_le_mul b3 (pow_le_pow_left₀ (abs_nonneg _) hs 3) (by positivity) (by positivity)).trans (by norm_num)
  have m1 : 45 / 100 ≤ 1 - s / 3 + s ^ 2 / 12 - 2 / 135 * s ^ 3 := by
    have : 0 ≤ (5 / 2 - s) * (1 / 3 - (s + 5 / 2) / 12 + 2 / 135 * (s ^ 2 + 5 / 2 * s + 25 / 4)) :=
      mul_nonneg (by linarith) (by nlinarith [sq_nonneg (s - 2)])
    nlinarith
  have m2 : 1 - s / 3 + s ^ 2 / 12 - 2 / 135 * s ^ 3 ≤ 259 / 100 := by
    have : 0 ≤ (5 / 2 + s) * (1 / 3 - (s - 5 / 2) / 12 + 2 / 135 * (s ^ 2 - 5 / 2 * s + 25 / 4)) :=
      mul_nonneg (by linarith) (by nlinarith [sq_nonneg (s - 2)])
    nlinarith
  have e : evr (c0 :: c1 :: c2 :: c3 :: rest) s = (1 - s / 3 + s ^ 2 / 12 - 2 / 135 * s ^ 3) + ((c1 : ℝ) + 1 / 3) * s + ((c2 : ℝ) - 1 / 12) * s ^ 2
      + ((c3 : ℝ) + 2 / 135) * s ^ 3 + s ^ 4 * evr rest s := by
    simp only [evr_cons]; rw [h0]; push_cast; ring
  rw [e]
  rw [abs_le] at p1 p2 p3 hq
  constructor <;> linarith [p1.1, p1.2, p2.1, p2.2, p3.1, p3.2, hq.1, hq.2]

/-- bound of `x^j / x^K` times the coefficients for `x ≥ r`, if all powers are at most `K` -/
def fcap (r : ℚ) (K : ℕ) : ℕ → List ℚ → ℚ
  | _, [] => 0
  | j, c :: l => c * r⁻¹ ^ (K - j) + fcap r K (j + 1) l

theorem evr_fcap {r : ℚ} (hr : 0 < r) (K : ℕ) {x : ℝ} (h1 : (r : ℝ) ≤ x) : ∀ (l : List ℚ) (j : ℕ), nonneg l → j + l.length ≤ K + 1 →
    x ^ j * evr l x ≤ fcap r K j l * x ^ K
  | [], j, _, _ => by simp [fcap]
  | c :: l, j, h, hl => by
    rw [List.length_cons] at hl
    have ih := evr_fcap hr K h1 l (j + 1) (fun c hc => h c (by simp [hc])) (by omega)
    have hc : (0 : ℝ) ≤ c := by exact_mod_cast h c (by simp)
    have hr' : (0 : ℝ) < r := by exact_mod_cast hr
    have hx : 0 < x := hr'.trans_le h1
    have key : x ^ j ≤ (r : ℝ)⁻¹ ^ (K - j) * x ^ K := by
      have e1 : x ^ K = x ^ j * x ^ (K - j) := by rw [← pow_add]; congr 1; omega
      rw [e1, inv_pow]
      have : (r : ℝ) ^ (K - j) ≤ x ^ (K - j) := pow_le_pow_left₀ hr'.le h1 _
      rw [inv_mul_eq_div, le_div_iff₀ (by positivity)]
      exact mul_le_mul_of_nonneg_left this (by positivity)
    rw [evr_cons, fcap]
    push_cast
    have := mul_le_mul_of_nonneg_left key hc
    rw [pow_succ] at ih
    nlinarith

def C1n (n N : ℕ) (s : ℚ) : ℚ := cap s (5 / 2) (2 * N + 1) 0 (padd (pE (Fn n)) (0 :: pE (Fn n)))
def C2n (n N : ℕ) : ℚ := fcap (5 / 2) (2 * N + 1) 0 (padd (pabs (Fn n)) [1, 1])

theorem cap_nonneg {s r : ℚ} (hs : 0 ≤ s) (hr : 0 ≤ r) (K : ℕ) : ∀ (l : List ℚ) (j : ℕ), nonneg l → 0 ≤ cap s r K j l
  | [], _, _ => le_rfl
  | c :: l, j, h => by
    rw [cap]
    have h1 := cap_nonneg hs hr K l (j + 1) (fun c hc => h c (by simp [hc]))
    have h2 := h c (by simp)
    refine add_nonneg (mul_nonneg h2 ?_) h1
    split <;> positivity

theorem mid_ok (n N : ℕ) {s : ℚ} (hs : 0 < s) (hsr : s ≤ 5 / 2) : Mid (Fn n) (5 / 2) N s (C1n n N s) where
  s_pos := hs
  s_lt := hsr
  mid t h1 h2 := by
    have hn : nonneg (padd (pE (Fn n)) (0 :: pE (Fn n))) := nonneg_padd (nonneg_pE _) (nonneg_cons le_rfl (nonneg_pE _))
    have := evr_cap hs (2 * N + 1) h1 h2 _ 0 hn
    rw [pow_zero, one_mul, evr_padd, evr_cons] at this
    refine le_trans (le_of_eq ?_) this
    push_cast; ring
  C_nonneg := cap_nonneg hs.le (by norm_num) _ _ _ (nonneg_padd (nonneg_pE _) (nonneg_cons le_rfl (nonneg_pE _)))

/-- the checks -/
def check (n N : ℕ) : Bool :=
  match Fn n with
  | c0 :: c1 :: c2 :: c3 :: rest => decide (c0 = 1 ∧ |c1 + 1 / 3| ≤ 1 / 10 ^ 9 ∧ |c2 - 1 / 12| ≤ 1 / 10 ^ 9 ∧ |c3 + 2 / 135| ≤ 1 / 10 ^ 9 ∧
      (5 / 2) ^ 4 * ev (pabs rest) (5 / 2) ≤ 2 / 5) && decide ((rho (Fn n)).head? = some 0) && decide ((padd (pabs (Fn n)) [1, 1]).length ≤ 2 * N + 2)
  | _ => false

theorem zones_ok {n N : ℕ} (h : check n N = true) : Zones (Fn n) (5 / 2) N (C2n n N) := by
  unfold check at h
  split at h
  · rename_i c0 c1 c2 c3 rest hF
    simp only [Bool.and_eq_true, decide_eq_true_eq] at h
    obtain ⟨⟨⟨g0, g1, g2, g3, g4⟩, g5⟩, g6⟩ := h
    refine ⟨by norm_num, g5, ?_, ?_⟩
    · intro s hs
      rw [hF]
      exact range_ok g0 g1 g2 g3 g4 hs
    · intro s hs
      have hn : nonneg (padd (pabs (Fn n)) [1, 1]) := nonneg_padd (nonneg_pabs _) (by intro c hc; simp at hc; rw [hc]; norm_num)
      have := evr_fcap (by norm_num : (0 : ℚ) < 5 / 2) (2 * N + 1) hs _ 0 hn (by omega)
      rw [pow_zero, one_mul, evr_padd] at this
      refine le_trans ?_ this
      have h1 := abs_evr_le (Fn n) s
      simp only [evr_cons, evr_nil]
      push_cast
      linarith
  · exact absurd h (by simp)

/-! ### Rational bounds of the exponential function -/

def expb (k : ℕ) (f : ℚ) : ℚ := (1000 / 2718) ^ k / (1 + f + f ^ 2 / 2)

theorem exp_le_expb {k : ℕ} {f : ℚ} (hf : 0 ≤ f) {q : ℝ} (hq : (k : ℝ) + f ≤ q) : Real.exp (-q) ≤ (expb k f : ℝ) := by
  have hf' : (0 : ℝ) ≤ f := by exact_mod_cast hf
  have h1 : Real.exp (-q) ≤ Real.exp (-(k : ℝ)) * Real.exp (-(f : ℝ)) := by rw [← Real.exp_add]; exact Real.exp_le_exp.2 (by linarith)
  have h2 : Real.exp (-(k : ℝ)) ≤ (1000 / 2718 : ℝ) ^ k := by
    rw [show -(k : ℝ) = k * (-1) by ring, Real.exp_nat_mul]
    refine pow_le_pow_left₀ (Real.exp_pos _).le ?_ k
    rw [Real.exp_neg, inv_le_comm₀ (Real.exp_pos _) (by norm_num)]
    have := Real.exp_one_gt_d9
    norm_num
    linarith
  have h3 : Real.exp (-(f : ℝ)) ≤ 1 / (1 + f + (f : ℝ) ^ 2 / 2) := by
    rw [Real.exp_neg, ← one_div]
    exact one_div_le_one_div_of_le (by positivity) (Real.quadratic_le_exp_of_nonneg hf')
  refine h1.trans ((mul_le_mul h2 h3 (Real.exp_pos _).le (by positivity)).trans_eq ?_)
  rw [expb]; push_cast; ring

theorem MM_le {a : ℝ} {a0 s h0 : ℚ} (h0a : 0 < a0) (ha : (a0 : ℝ) ≤ a) (hs : 0 ≤ s) (N : ℕ) {k : ℕ} {f : ℚ} (hf : 0 ≤ f)
    (hq : k + f ≤ a0 * (s ^ 2 / 2 - h0)) : MM a N s * Real.exp (a * h0) ≤ ((mom a0 s N * expb k f : ℚ) : ℝ) := by
  have h0a' : (0 : ℝ) < a0 := by exact_mod_cast h0a
  have hs' : (0 : ℝ) ≤ s := by exact_mod_cast hs
  have hq' : (k : ℝ) + f ≤ a0 * ((s : ℝ) ^ 2 / 2 - h0) := by exact_mod_cast hq
  have hf' : (0 : ℝ) ≤ f := by exact_mod_cast hf
  have hpos : (0 : ℝ) ≤ (s : ℝ) ^ 2 / 2 - h0 := by
    have : (0 : ℝ) ≤ k := by positivity
    by_contra hc
    push Not at hc
    nlinarith
  have e1 : MM a N s * Real.exp (a * h0) = mom a (s : ℝ) N * Real.exp (-(a * ((s : ℝ) ^ 2 / 2 - h0))) := by
    rw [MM, mul_right_comm, ← Real.exp_add, mul_comm]
    congr 2; ring
  rw [e1]
  push_cast
  rw [← mom_rat]
  refine mul_le_mul (mom_anti h0a' ha hs' N) ?_ (Real.exp_pos _).le (mom_pos h0a' hs' N).le
  refine exp_le_expb hf (hq'.trans ?_)
  exact mul_le_mul_of_nonneg_right ha hpos

theorem C2n_nonneg {n N : ℕ} (h : check n N = true) : (0 : ℝ) ≤ C2n n N := by
  have hZ := zones_ok h
  have := hZ.far ((5 / 2 : ℚ) : ℝ) (le_abs_self _)
  have h2 := abs_nonneg (evr (Fn n) ((5 / 2 : ℚ) : ℝ))
  have h3 : |((5 / 2 : ℚ) : ℝ)| = 5 / 2 := by rw [abs_of_pos] <;> norm_num
  rw [h3] at this
  have h4 : (0 : ℝ) < (5 / 2) ^ (2 * N + 1) := by positivity
  by_contra hc
  push Not at hc
  nlinarith

theorem sum_le {n N : ℕ} (h : check n N = true) {a : ℝ} {a0 s h0 : ℚ} (h0a : 0 < a0) (ha : (a0 : ℝ) ≤ a) (hs : 0 < s) (hs2 : s ≤ 5 / 2)
    {w A f1 f2 : ℚ} {k1 k2 : ℕ} (hw : 0 < w) (hf1 : 0 ≤ f1) (hf2 : 0 ≤ f2) (hq1 : k1 + f1 ≤ a0 * (s ^ 2 / 2 - h0))
    (hq2 : k2 + f2 ≤ a0 * ((5 / 2) ^ 2 / 2 - h0))
    (hA : (C1n n N s * (mom a0 s N * expb k1 f1) + C2n n N * (mom a0 (5 / 2) N * expb k2 f2)) / w ≤ A) :
    0 ≤ C1n n N s * MM a N s + C2n n N * MM a N ((5 / 2 : ℚ) : ℝ) ∧
    (C1n n N s * MM a N s + C2n n N * MM a N ((5 / 2 : ℚ) : ℝ)) * Real.exp (a * h0) / w ≤ A := by
  have ha0 : 0 < a := lt_of_lt_of_le (by exact_mod_cast h0a) ha
  have hC1 : (0 : ℝ) ≤ C1n n N s := by exact_mod_cast (mid_ok n N hs hs2).C_nonneg
  have hC2 := C2n_nonneg h
  have hs' : (0 : ℝ) ≤ s := by exact_mod_cast hs.le
  have hw' : (0 : ℝ) < w := by exact_mod_cast hw
  refine ⟨add_nonneg (mul_nonneg hC1 (MM_nonneg ha0 N hs')) (mul_nonneg hC2 (MM_nonneg ha0 N (by norm_num))), ?_⟩
  have h1 := mul_le_mul_of_nonneg_left (MM_le h0a ha hs.le N hf1 hq1) hC1
  have h2 := mul_le_mul_of_nonneg_left (MM_le h0a ha (by norm_num : (0 : ℚ) ≤ 5 / 2) N hf2 hq2) hC2
  have hA' : (((C1n n N s * (mom a0 s N * expb k1 f1) + C2n n N * (mom a0 (5 / 2) N * expb k2 f2)) / w : ℚ) : ℝ) ≤ A := by exact_mod_cast hA
  rw [Rat.cast_div, Rat.cast_add, Rat.cast_mul (C1n n N s), Rat.cast_mul (C2n n N)] at hA'
  refine le_trans ?_ hA'
  refine div_le_div_of_nonneg_right ?_ hw'.le
  rw [add_mul, mul_assoc, mul_assoc]
  exact add_le_add h1 h2

/-! ### The three types -/

set_option maxRecDepth 100000

theorem check_float : check 11 6 = true := by decide +kernel
theorem check_double : check 26 14 = true := by decide +kernel
theorem check_long : check 31 17 = true := by decide +kernel

section
variable {a e z : ℝ} {B : List ℝ}

theorem hh_le_of {y b q : ℝ} (h1 : Real.exp y ≤ b) (h2 : b - 1 - y ≤ q) : hh y ≤ q := by rw [hh]; linarith

theorem hh_point3 : hh ((3 / 10 : ℚ) : ℝ) ≤ ((1 / 20 : ℚ) : ℝ) ∧ hh (-((3 / 10 : ℚ) : ℝ)) ≤ ((1 / 20 : ℚ) : ℝ) := by
  have e : ((3 / 10 : ℚ) : ℝ) = 3 / 10 := by norm_num
  have e' : ((1 / 20 : ℚ) : ℝ) = 1 / 20 := by norm_num
  rw [e, e']
  have key : ∀ y : ℝ, |y| ≤ 1 → Real.exp y ≤ 1 + y + y ^ 2 / 2 + y ^ 3 / 6 + |y| ^ 4 * (5 / 96) := by
    intro y hy
    have := Real.exp_bound hy (n := 4) (by norm_num)
    have h1 := (abs_le.1 this).2
    simp only [Finset.sum_range_succ, Finset.sum_range_zero, Nat.factorial] at h1
    norm_num at h1 ⊢
    linarith
  constructor
  · refine hh_le_of (key _ (by rw [abs_of_pos] <;> norm_num)) ?_
    rw [abs_of_pos (by norm_num)]; norm_num
  · refine hh_le_of (key _ (by rw [abs_neg, abs_of_pos] <;> norm_num)) ?_
    rw [abs_neg, abs_of_pos (by norm_num)]; norm_num

theorem abs_final {n N : ℕ} (hc : check n N = true) {a0 E A f1 f2 δ : ℚ} {k1 k2 : ℕ} (h0a : 0 < a0) (ha : (a0 : ℝ) ≤ a)
    (hD : 0 < 1 + B.getD 1 0 / a) (hB : Corr a (Fn n) B) (hf1 : 0 ≤ f1) (hf2 : 0 ≤ f2)
    (hq1 : k1 + f1 ≤ a0 * ((4 / 5) ^ 2 / 2 - 1 / 20)) (hq2 : k2 + f2 ≤ a0 * ((5 / 2) ^ 2 / 2 - 1 / 20))
    (hA : (C1n n N (4 / 5) * (mom a0 (4 / 5) N * expb k1 f1) + C2n n N * (mom a0 (5 / 2) N * expb k2 f2)) / (3 / 10) ≤ A)
    (hE : ev (pE (Fn n)) (4 / 5) ≤ E) (hEA : E + A < 1) (hδ : (2 * E + 3 / 2 * A) / (1 - (E + A)) ≤ δ)
    (he : Sign e) (hz : 0 ≤ z) (hzr : tt e z ≤ 5 / 2) : |psi a B e z - qq a e z| ≤ δ := by
  have hs := sum_le hc h0a ha (s := 4 / 5) (h0 := 1 / 20) (by norm_num) (by norm_num) (by norm_num : (0 : ℚ) < 3 / 10) hf1 hf2 hq1 hq2 hA
  have ha0 : 0 < a := lt_of_lt_of_le (by exact_mod_cast h0a) ha
  have hE' : evr (pE (Fn n)) ((4 / 5 : ℚ) : ℝ) ≤ E := by rw [evr_rat]; exact_mod_cast hE
  have h1 := absolute ha0 hD hB (zones_ok hc) (mid_ok n N (s := 4 / 5) (by norm_num) (by norm_num)) (h0 := ((1 / 20 : ℚ) : ℝ)) (w := ((3 / 10 : ℚ) : ℝ))
    (by norm_num) hE' hs.2 (by exact_mod_cast hEA) hs.1 he hz (hzr.trans (by norm_num)) hh_point3.1 hh_point3.2
  refine h1.trans ?_
  have : (((2 * E + 3 / 2 * A) / (1 - (E + A)) : ℚ) : ℝ) ≤ δ := by exact_mod_cast hδ
  push_cast at this
  exact this

theorem rel_final {n N : ℕ} (hc : check n N = true) {a0 Δ f1 f2 δ : ℚ} {k1 k2 : ℕ} (h0a : 0 < a0) (ha : (a0 : ℝ) ≤ a)
    (hD : 0 < 1 + B.getD 1 0 / a) (hB : Corr a (Fn n) B) (hf1 : 0 ≤ f1) (hf2 : 0 ≤ f2)
    (hq1 : k1 + f1 ≤ a0 * ((53 / 50) ^ 2 / 2 - 5618 / 10000)) (hq2 : k2 + f2 ≤ a0 * ((5 / 2) ^ 2 / 2 - 5618 / 10000))
    (hA : (C1n n N (53 / 50) * (mom a0 (53 / 50) N * expb k1 f1) + C2n n N * (mom a0 (5 / 2) N * expb k2 f2)) / (1 / 25) ≤ Δ - ev (pE (Fn n)) (53 / 50))
    (hΔ : Δ < 1) (hδ : 2 * Δ / (1 - Δ) ≤ δ)
    (he : Sign e) (hz : 0 ≤ z) (hzr : tt e z ≤ 5 / 2) (hhz : hh (e * (z + 1 / 25)) ≤ 5618 / 10000) :
    |psi a B e z - qq a e z| ≤ δ * qq a e z := by
  have hs := sum_le hc h0a ha (s := 53 / 50) (h0 := 5618 / 10000) (by norm_num) (by norm_num) (by norm_num : (0 : ℚ) < 1 / 25) hf1 hf2 hq1 hq2 hA
  have ha0 : 0 < a := lt_of_lt_of_le (by exact_mod_cast h0a) ha
  have h3 := hh_point3
  have e25 : ((1 / 25 : ℚ) : ℝ) = 1 / 25 := by norm_num
  have e0 : ((5618 / 10000 : ℚ) : ℝ) = 5618 / 10000 := by norm_num
  have hp : hh (1 / 25) ≤ 5618 / 10000 := by
    refine hh_le_of (b := 25 / 24) ?_ (by norm_num)
    have := Real.one_sub_le_exp_neg (1 / 25)
    rw [show (1 / 25 : ℝ) = -(-(1 / 25)) by ring, Real.exp_neg]
    rw [inv_le_comm₀ (Real.exp_pos _) (by norm_num)]
    refine le_trans (by norm_num) this
  have hm : hh (-(1 / 25)) ≤ 5618 / 10000 :=
    hh_le_of (b := 1) (Real.exp_le_one_iff.2 (by norm_num)) (by norm_num)
  have h1 := relative ha0 hD hB (zones_ok hc) (mid_ok n N (s := 53 / 50) (by norm_num) (by norm_num)) (h0 := ((5618 / 10000 : ℚ) : ℝ)) (w := ((1 / 25 : ℚ) : ℝ))
    (Δ := Δ) (by norm_num) (by
      have h2 := hs.2
      rw [evr_rat]
      push_cast at h2 ⊢
      linarith) (by exact_mod_cast hΔ) hs.1 he hz (hzr.trans (by norm_num)) (by rw [e25, e0]; exact hhz) (by rw [e25, e0]; exact hp) (by rw [e25, e0]; exact hm)
  refine h1.trans (mul_le_mul_of_nonneg_right ?_ (qq_nonneg ha0 he z))
  have : ((2 * Δ / (1 - Δ) : ℚ) : ℝ) ≤ δ := by exact_mod_cast hδ
  push_cast at this
  exact this

theorem float_abs (ha : (6 : ℝ) ≤ a) (hD : 0 < 1 + B.getD 1 0 / a) (hB : Corr a (Fn 11) B) (he : Sign e) (hz : 0 ≤ z) (hzr : tt e z ≤ 5 / 2) :
    |psi a B e z - qq a e z| ≤ 17 / 10 * 2⁻¹ ^ 23 := by
  have := abs_final check_float (a0 := 6) (E := 2 / 100 / 2 ^ 23) (A := 108 / 100 / 2 ^ 23) (k1 := 1) (f1 := 62 / 100) (k2 := 18) (f2 := 45 / 100)
    (δ := 17 / 10 / 2 ^ 23) (by norm_num) (by exact_mod_cast ha) hD hB (by norm_num) (by norm_num) (by norm_num) (by norm_num)
    (by decide +kernel) (by decide +kernel) (by norm_num) (by norm_num) he hz hzr
  refine this.trans_eq ?_
  push_cast; ring

theorem double_abs (ha : (15 : ℝ) ≤ a) (hD : 0 < 1 + B.getD 1 0 / a) (hB : Corr a (Fn 26) B) (he : Sign e) (hz : 0 ≤ z) (hzr : tt e z ≤ 5 / 2) :
    |psi a B e z - qq a e z| ≤ 17 / 10 * 2⁻¹ ^ 52 := by
  have := abs_final check_double (a0 := 15) (E := 1 / 100 / 2 ^ 52) (A := 1 / 2 ^ 52) (k1 := 4) (f1 := 5 / 100) (k2 := 46) (f2 := 125 / 1000)
    (δ := 17 / 10 / 2 ^ 52) (by norm_num) (by exact_mod_cast ha) hD hB (by norm_num) (by norm_num) (by norm_num) (by norm_num)
    (by decide +kernel) (by decide +kernel) (by norm_num) (by norm_num) he hz hzr
  refine this.trans_eq ?_
  push_cast; ring

theorem long_abs (ha : (18 : ℝ) ≤ a) (hD : 0 < 1 + B.getD 1 0 / a) (hB : Corr a (Fn 31) B) (he : Sign e) (hz : 0 ≤ z) (hzr : tt e z ≤ 5 / 2) :
    |psi a B e z - qq a e z| ≤ 17 / 10 * 2⁻¹ ^ 63 := by
  have := abs_final check_long (a0 := 18) (E := 1 / 100 / 2 ^ 63) (A := 1 / 2 ^ 63) (k1 := 4) (f1 := 86 / 100) (k2 := 55) (f2 := 35 / 100)
    (δ := 17 / 10 / 2 ^ 63) (by norm_num) (by exact_mod_cast ha) hD hB (by norm_num) (by norm_num) (by norm_num) (by norm_num)
    (by decide +kernel) (by decide +kernel) (by norm_num) (by norm_num) he hz hzr
  refine this.trans_eq ?_
  push_cast; ring

theorem float_rel (ha : (6 : ℝ) ≤ a) (hD : 0 < 1 + B.getD 1 0 / a) (hB : Corr a (Fn 11) B) (he : Sign e) (hz : 0 ≤ z) (hzr : tt e z ≤ 5 / 2)
    (hhz : hh (e * (z + 1 / 25)) ≤ 5618 / 10000) : |psi a B e z - qq a e z| ≤ 4096 * 2⁻¹ ^ 23 * qq a e z := by
  have := rel_final check_float (a0 := 6) (Δ := 2000 / 2 ^ 23) (k1 := 0) (f1 := 0) (k2 := 15) (f2 := 37 / 100)
    (δ := 4096 / 2 ^ 23) (by norm_num) (by exact_mod_cast ha) hD hB (by norm_num) (by norm_num) (by norm_num) (by norm_num)
    (by decide +kernel) (by norm_num) (by norm_num) he hz hzr hhz
  refine this.trans_eq ?_
  push_cast; ring

theorem double_rel (ha : (15 : ℝ) ≤ a) (hD : 0 < 1 + B.getD 1 0 / a) (hB : Corr a (Fn 26) B) (he : Sign e) (hz : 0 ≤ z) (hzr : tt e z ≤ 5 / 2)
    (hhz : hh (e * (z + 1 / 25)) ≤ 5618 / 10000) : |psi a B e z - qq a e z| ≤ 4096 * 2⁻¹ ^ 52 * qq a e z := by
  have := rel_final check_double (a0 := 15) (Δ := 2000 / 2 ^ 52) (k1 := 0) (f1 := 0) (k2 := 38) (f2 := 44 / 100)
    (δ := 4096 / 2 ^ 52) (by norm_num) (by exact_mod_cast ha) hD hB (by norm_num) (by norm_num) (by norm_num) (by norm_num)
    (by decide +kernel) (by norm_num) (by norm_num) he hz hzr hhz
  refine this.trans_eq ?_
  push_cast; ring

theorem long_rel (ha : (18 : ℝ) ≤ a) (hD : 0 < 1 + B.getD 1 0 / a) (hB : Corr a (Fn 31) B) (he : Sign e) (hz : 0 ≤ z) (hzr : tt e z ≤ 5 / 2)
    (hhz : hh (e * (z + 1 / 25)) ≤ 5618 / 10000) : |psi a B e z - qq a e z| ≤ 4096 * 2⁻¹ ^ 63 * qq a e z := by
  have := rel_final check_long (a0 := 18) (Δ := 2000 / 2 ^ 63) (k1 := 0) (f1 := 0) (k2 := 46) (f2 := 13 / 100)
    (δ := 4096 / 2 ^ 63) (by norm_num) (by exact_mod_cast ha) hD hB (by norm_num) (by norm_num) (by norm_num) (by norm_num)
    (by decide +kernel) (by norm_num) (by norm_num) he hz hzr hhz
  refine this.trans_eq ?_
  push_cast; ring

end
end Trng.Temme
