import Verif.Proofs.PeriodDiscrete
import Verif.Proofs.RoundedDiscrete
import Verif.Props.Discrete

/-! Integer samples of one period: uniform integers, weighted integers, geometric distribution. -/
namespace Trng.PeriodLaw
open XR FP Trng.Uniform Spec

variable {σ : Type} {G : Gen σ} {e : σ} {T : ℕ}

/-- The sum of the probabilities in closed form. -/
theorem upTo_eq {lo : ℤ} {p : ℤ → ℝ} {F : ℕ → ℝ} (h0 : F 0 = 0) (h : ∀ n : ℕ, F (n + 1) = F n + p (lo + n)) (n : ℕ) : upTo lo p (lo + n - 1) = F n := by
  induction n with
  | zero =>
    rw [h0]
    unfold upTo
    rw [Finset.Icc_eq_empty (by simp), Finset.sum_empty]
  | succ n ih =>
    rw [upTo_succ (by push_cast; omega), h, ← ih]
    push_cast
    congr 2 <;> ring_nf

theorem upTo_le {lo : ℤ} {p : ℤ → ℝ} {F : ℕ → ℝ} (h0 : F 0 = 0) (h : ∀ n : ℕ, F (n + 1) = F n + p (lo + n)) (h1 : ∀ n, F n ≤ 1) (t : ℤ) : upTo lo p t ≤ 1 := by
  rcases lt_or_ge t lo with ht | ht
  · unfold upTo
    rw [Finset.Icc_eq_empty (by omega), Finset.sum_empty]
    exact zero_le_one
  · obtain ⟨n, hn⟩ := Int.eq_ofNat_of_zero_le (show 0 ≤ t + 1 - lo by omega)
    have : t = lo + n - 1 := by omega
    rw [this, upTo_eq h0 h]
    exact h1 n

/-- Sum of the uniform probabilities. -/
theorem uniformInt_sum {a b : ℤ} (hab : a < b) :
    (∀ n : ℕ, (n : ℤ) ≤ b - a → upTo a (uniformInt a b) (a + n - 1) = n / (b - a)) ∧ (∀ t, upTo a (uniformInt a b) t ≤ 1) ∧ ∀ x, 0 ≤ uniformInt a b x := by
  have hd : (0 : ℝ) < b - a := by
    have : (a : ℝ) < b := by exact_mod_cast hab
    linarith
  set F : ℕ → ℝ := fun n => if (n : ℤ) ≤ b - a then n / (b - a : ℝ) else 1 with hF
  have h0 : F 0 = 0 := by simp only [hF]; rw [if_pos (by push_cast; omega)]; simp
  have h : ∀ n : ℕ, F (n + 1) = F n + uniformInt a b (a + n) := fun n => by
    simp only [hF, uniformInt]
    rcases lt_trichotomy (n : ℤ) (b - a) with h | h | h
    · rw [if_pos (by push_cast; omega), if_pos (by omega), if_pos (by omega)]
      push_cast; ring
    · rw [if_neg (by push_cast; omega), if_pos (by omega), if_neg (by omega)]
      have : (n : ℝ) = b - a := by exact_mod_cast h
      rw [this, div_self hd.ne']; ring
    · rw [if_neg (by push_cast; omega), if_neg (by omega), if_neg (by omega)]
      ring
  refine ⟨fun n hn => ?_, upTo_le h0 h fun n => ?_, fun x => ?_⟩
  · rw [upTo_eq h0 h]
    simp only [hF]
    rw [if_pos hn]
  · simp only [hF]
    split_ifs with hn
    · rw [div_le_one hd]
      have : ((n : ℤ) : ℝ) ≤ ((b - a : ℤ) : ℝ) := by exact_mod_cast hn
      push_cast at this; exact this
    · exact le_rfl
  · unfold uniformInt
    split_ifs
    · positivity
    · exact le_rfl

/-- A deviate scaled with a rounded integer. -/
theorem scaled_floor {u : ℚ} (hu : Rep float64.p u) (h0 : 0 ≤ u) (h1 : u < 1) {x lo hi : ℤ} (hx : 0 < x) (hlo : lo ≤ 0) (hhi : x - 1 ≤ hi) :
    ∃ k : ℕ, toInteger lo hi (float64.rnd (u * float64.rnd x)) = some (k : ℤ) ∧ (k : ℤ) < x ∧ (k : ℝ) / x - 4e-16 ≤ u ∧ (u : ℝ) ≤ (k + 1) / x + 4e-16 := by
  obtain ⟨k, hk, hk0, hkx⟩ := toInteger_scaled float64_nearest (by decide) hu h0 h1 hx hlo hhi
  obtain ⟨n, rfl⟩ := Int.eq_ofNat_of_zero_le hk0
  refine ⟨n, hk, hkx, ?_⟩
  have hxq : (0 : ℚ) < x := by exact_mod_cast hx
  obtain ⟨a1, a2⟩ := rnd_bounds float64_nearest (by decide) hxq.le
  have hV : 0 ≤ float64.rnd x := float64_nearest.nonneg hxq.le
  obtain ⟨b1, b2⟩ := rnd_bounds float64_nearest (by decide) (mul_nonneg h0 hV)
  have eu : ulp float64 = 2 ^ (-53 : ℤ) := rfl
  rw [eu] at a1 a2 b1 b2
  have hy0 : 0 ≤ float64.rnd (u * float64.rnd x) := float64_nearest.nonneg (mul_nonneg h0 hV)
  unfold toInteger at hk
  simp only [if_pos hy0] at hk
  split_ifs at hk
  have hfl := Option.some.inj hk
  have c1 : (n : ℚ) ≤ float64.rnd (u * float64.rnd x) := by
    have := Int.floor_le (float64.rnd (u * float64.rnd x))
    rw [hfl] at this; exact_mod_cast this
  have c2 : float64.rnd (u * float64.rnd x) < n + 1 := by
    have := Int.lt_floor_add_one (float64.rnd (u * float64.rnd x))
    rw [hfl] at this; exact_mod_cast this
  have h53 : (2 : ℚ) ^ (-53 : ℤ) = 1 / 9007199254740992 := by norm_num
  rw [h53] at a1 a2 b1 b2
  set V := float64.rnd x
  set y := float64.rnd (u * V)
  have d1 : u * V ≤ u * (x * (1 + 1 / 9007199254740992)) := mul_le_mul_of_nonneg_left a2 h0
  have d2 : u * (x * (1 - 1 / 9007199254740992)) ≤ u * V := mul_le_mul_of_nonneg_left a1 h0
  have ux : 0 ≤ u * x := by positivity
  have ux1 : u * x ≤ x := by nlinarith
  have q1 : (n : ℚ) / x - 4e-16 ≤ u := by
    rw [sub_le_iff_le_add, div_le_iff₀ hxq]
    nlinarith
  have q2 : u ≤ (n + 1 : ℚ) / x + 4e-16 := by
    rw [← sub_le_iff_le_add, le_div_iff₀ hxq]
    nlinarith
  constructor
  · have := (Rat.cast_le (K := ℝ)).2 q1
    push_cast at this; exact this
  · have := (Rat.cast_le (K := ℝ)).2 q2
    push_cast at this; exact this

theorem sum_le' (hG : G.Sound) {ε : ℝ} : ε + (12 / (G.max - G.min) + 4e-15) + 1 / (G.max - G.min + 1) + 1 / T ≤ ε + 4e-15 + 13 / (G.max - G.min : ℝ) + 1 / T := sum_le hG

/-- From a statement on deviates of `uniformco` to one on the samples of a period. -/
theorem integers_co {draw : ℚ → Option ℤ} {sample : σ → Option ℤ × σ} {lo : ℤ} {p : ℤ → ℝ} {ε : ℝ} (hG : G.Sound) (hE : Equidistributed G e T)
    (hs : ∀ s, sample s = (draw (uniformco float64 G s).1, (uniformco float64 G s).2)) (hp : ∀ x, 0 ≤ p x) (h1 : ∀ t, upTo lo p t ≤ 1) (hε : 0 ≤ ε)
    (h : ∀ u : ℚ, Rep float64.p u → 0 ≤ u → u < 1 → ∃ n, draw u = some n ∧ lo ≤ n ∧ upTo lo p (n - 1) - ε ≤ u ∧ (u : ℝ) ≤ upTo lo p n + ε) :
    IntegersFollow sample e T lo p (ε + 4e-15 + 13 / (G.max - G.min : ℝ) + 1 / T) := by
  have h5 := pos_nonneg' hG
  refine IntegersFollow.mono (integers hG hE (fun s => by rw [hs]; exact (calls_one (F := float64) (by decide) hG s).2.2.2) hp h1
    (δ := ε + (12 / (G.max - G.min) + 4e-15)) (by linarith) fun s => ?_) (sum_le hG)
  obtain ⟨u, eu, -, -, ha⟩ := co_facts hG s
  obtain ⟨h0, hlt⟩ := C47_uniformco float64_nearest (by decide) hG s
  obtain ⟨n, hn, hl, h2, h3⟩ := h (uniformco float64 G s).1 (float64_nearest.rep _) h0 hlt
  refine ⟨n, by rw [hs]; exact hn, hl, ?_⟩
  rw [eu] at h2 h3
  obtain ⟨b1, b2⟩ := abs_le.1 ha
  exact ⟨by linarith, by linarith⟩


/-! ### Weights -/

theorem weighted_sum (m : List ℕ) (h0 : 0 < m.sum) :
    (∀ n : ℕ, upTo 0 (weighted m) (n - 1) = ((m.take n).sum : ℝ) / m.sum) ∧ (∀ t, upTo 0 (weighted m) t ≤ 1) ∧ ∀ x, 0 ≤ weighted m x := by
  have hs : (0 : ℝ) < m.sum := by exact_mod_cast h0
  have a : (fun n : ℕ => ((m.take n).sum : ℝ) / m.sum) 0 = 0 := by simp
  have b : ∀ n : ℕ, (fun n : ℕ => ((m.take n).sum : ℝ) / m.sum) (n + 1) = (fun n : ℕ => ((m.take n).sum : ℝ) / m.sum) n + weighted m (0 + n) := fun n => by
    simp only [weighted, zero_add, Nat.cast_nonneg, if_true, Int.toNat_natCast]
    rw [← add_div]
    congr 1
    have : (m.take (n + 1)).sum = (m.take n).sum + m.getD n 0 := by
      rcases lt_or_ge n m.length with h | h
      · rw [List.take_add_one, List.getElem?_eq_getElem h, List.sum_append, List.getD_eq_getElem _ _ h]
        simp
      · rw [List.take_of_length_le h, List.take_of_length_le (by omega), List.getD_eq_default _ _ h, add_zero]
    exact_mod_cast this
  refine ⟨fun n => ?_, upTo_le (F := fun n : ℕ => ((m.take n).sum : ℝ) / m.sum) a b fun n => ?_, fun x => ?_⟩
  · have := upTo_eq (F := fun n : ℕ => ((m.take n).sum : ℝ) / m.sum) a b n
    rwa [zero_add] at this
  · rw [div_le_one hs]
    exact_mod_cast List.Sublist.sum_le_sum (List.take_sublist n m) (by simp)
  · unfold weighted
    split_ifs
    · positivity
    · exact le_rfl

/-- A deviate scaled with the sum of the weights. -/
theorem scaled_sum {u S a b : ℚ} (h0 : 0 ≤ u) (h1 : u < 1) (hS : 0 < S) (ha : a ≤ float64.rnd (u * S)) (hb : float64.rnd (u * S) < b) :
    (a / S : ℚ) - 4e-16 ≤ (u : ℝ) ∧ (u : ℝ) ≤ (b / S : ℚ) + 4e-16 := by
  obtain ⟨b1, b2⟩ := rnd_bounds float64_nearest (by decide) (mul_nonneg h0 hS.le)
  have eu : ulp float64 = 1 / 9007199254740992 := by
    show (2 : ℚ) ^ (-53 : ℤ) = _
    norm_num
  rw [eu] at b1 b2
  have ux1 : u * S ≤ S := by nlinarith
  have q1 : a / S - 4e-16 ≤ u := by
    rw [sub_le_iff_le_add, div_le_iff₀ hS]
    nlinarith
  have q2 : u ≤ b / S + 4e-16 := by
    rw [← sub_le_iff_le_add, le_div_iff₀ hS]
    nlinarith
  constructor
  · have := (Rat.cast_le (K := ℝ)).2 q1
    push_cast at this ⊢; exact this
  · have := (Rat.cast_le (K := ℝ)).2 q2
    push_cast at this ⊢; exact this

/-! ### Geometric distribution -/

section
open Inverse
variable {M : Machine} {d : ℝ}

theorem recip_log (D : DoubleWithin M d) (hd : d ≤ 9e-16) {p : ℝ} (p0 : 1e-6 ≤ p) (p1 : p ≤ 1 - 2 ^ (-53 : ℤ)) :
    ∃ q l c, M.rnd (1 - p) = fin q ∧ M.ln (fin q) = fin l ∧ M.rnd (1 / l) = fin c ∧ l ≠ 0 ∧ |c * -Real.log (1 - p) + 1| ≤ 1.1e-15 + 2.8e-16 / p := by
  have h53 : (0 : ℝ) < 2 ^ (-53 : ℤ) := by positivity
  have hq0 : (2 : ℝ) ^ (-53 : ℤ) ≤ 1 - p := by linarith
  have hq : 0 < 1 - p := by linarith
  have hp : 0 < p := by linarith
  obtain ⟨q, eq, hqr⟩ := rnd_near D (x := 1 - p) (le_trans (zpow_le_zpow_right₀ one_le_two (by norm_num)) hq0)
    (le_trans (by linarith : 1 - p ≤ 1) (one_le_zpow₀ one_le_two (by norm_num)))
  obtain ⟨q1, q2⟩ := log_rel hq hqr (by norm_num)
  set Λ := -Real.log (1 - p) with hΛ
  have hΛp : p ≤ Λ := by
    have := Real.log_le_sub_one_of_pos hq
    linarith
  have hΛ1 : Λ ≤ 37 := by
    have := Real.log_le_log h53 hq0
    rw [Real.log_zpow] at this
    push_cast at this
    linarith [Real.log_two_lt_d9]
  have q3 := abs_le.1 q2
  have q4 : |Real.log q| ≤ Λ + 2.6e-16 := abs_le.2 ⟨by linarith, by linarith⟩
  obtain ⟨l, el, hl⟩ := D.ln q q1 (q4.trans (by linarith [show (38 : ℝ) ≤ 1e300 by norm_num]))
  change _ ≤ _ + tiny at hl
  have ht := tiny_le
  have hl2 : |l - Real.log q| ≤ 9e-16 * (Λ + 2.6e-16) + 1e-30 := by
    refine hl.trans (add_le_add (mul_le_mul hd q4 (abs_nonneg _) (by norm_num)) ht)
  have hl3 := abs_le.1 hl2
  set ρ := 2.7e-16 / p + 9e-16 with hρ
  have hρ1 : ρ ≤ 1e-9 := by
    have : 2.7e-16 / p ≤ 2.7e-16 / 1e-6 := div_le_div_of_nonneg_left (by norm_num) (by norm_num) p0
    have e : (2.7e-16 : ℝ) / 1e-6 = 2.7e-10 := by norm_num
    rw [hρ]; linarith
  have hρ0 : 0 ≤ ρ := by positivity
  have hρΛ : 2.7e-16 + 9e-16 * Λ ≤ ρ * Λ := by
    have : 2.7e-16 / p * p ≤ 2.7e-16 / p * Λ := mul_le_mul_of_nonneg_left hΛp (by positivity)
    rw [div_mul_cancel₀ _ hp.ne'] at this
    rw [hρ, add_mul]; linarith
  have hΛ0 : 0 < Λ := by linarith
  have l1 : |l + Λ| ≤ ρ * Λ := by
    refine le_trans (abs_le.2 ⟨?_, ?_⟩) hρΛ <;> linarith
  have l2 := abs_le.1 l1
  have hlneg : l < 0 := by nlinarith
  have hl0 : 0.999 * Λ ≤ -l := by nlinarith
  have habs : |1 / l| = 1 / (-l) := by rw [abs_div, abs_one, abs_of_neg hlneg]
  have hinv : 1 / (-l) ≤ 1.002 / Λ := by
    rw [div_le_div_iff₀ (by linarith) hΛ0]; linarith
  have hΛinv : 1 / Λ ≤ 1e6 := by
    rw [div_le_iff₀ hΛ0]; linarith
  obtain ⟨c, ec, hc⟩ := rnd_err D (x := 1 / l) (big_le (y := 1e7) (by
    rw [habs]; refine hinv.trans ?_
    rw [show (1.002 : ℝ) / Λ = 1.002 * (1 / Λ) by ring]; linarith) (by norm_num))
  refine ⟨q, l, c, eq, el, ec, hlneg.ne, ?_⟩
  have hne := hlneg.ne
  have e : c * Λ + 1 = (c - 1 / l) * Λ + (Λ + l) / l := by field_simp; ring
  rw [e]
  refine (abs_add_le _ _).trans ?_
  rw [abs_mul, abs_div, abs_of_pos hΛ0, abs_of_neg hlneg, add_comm Λ]
  rw [habs] at hc
  have c1 : |c - 1 / l| * Λ ≤ 1.2e-16 * 1.002 + 1e-28 := by
    have : |c - 1 / l| ≤ 1.2e-16 * (1.002 / Λ) + 1e-30 := hc.trans (add_le_add (mul_le_mul_of_nonneg_left hinv (by norm_num)) ht)
    refine (mul_le_mul_of_nonneg_right this hΛ0.le).trans ?_
    rw [add_mul, mul_assoc, div_mul_cancel₀ _ hΛ0.ne']
    linarith
  have c2 : |l + Λ| / -l ≤ 1.002 * ρ := by
    rw [div_le_iff₀ (by linarith)]
    nlinarith
  have e3 : 2.8e-16 / p = 2.8e-16 / 2.7e-16 * (ρ - 9e-16) := by rw [hρ]; field_simp; ring
  rw [e3]
  have : 9e-16 ≤ ρ := by rw [hρ]; linarith [show 0 ≤ 2.7e-16 / p by positivity]
  norm_num at *
  linarith

/-- The number that is truncated. -/
theorem geometric_value (D : DoubleWithin M d) (hd : d ≤ 9e-16) {p u : ℝ} (p0 : 1e-6 ≤ p) (p1 : p ≤ 1 - 2 ^ (-53 : ℤ)) (u0 : 2 ^ (-52 : ℤ) ≤ u) (u1 : u < 1) :
    ∃ z, M.mul (M.ln (fin u)) (Rounded.geometric M (fin p)).oneOverLnQ = fin z ∧ |z * -Real.log (1 - p) + Real.log u| ≤ 9e-14 + 1.1e-14 / p := by
  obtain ⟨q, l, c, eq, el, ec, hne, hc⟩ := recip_log D hd p0 p1
  have hp : 0 < p := by linarith
  have hu : 0 < u := lt_of_lt_of_le (by positivity) u0
  have e1 : (Rounded.geometric M (fin p)).oneOverLnQ = fin c := by
    show M.div 1 (M.ln (M.sub 1 (fin p))) = _
    rw [one_def, Machine.sub_fin, eq, el]
    rw [Machine.div_fin 1 hne, ec]
  set Λ := -Real.log (1 - p) with hΛ
  have hq0 : (2 : ℝ) ^ (-53 : ℤ) ≤ 1 - p := by linarith
  have hΛ1 : Λ ≤ 37 := by
    have := Real.log_le_log (by positivity) hq0
    rw [Real.log_zpow] at this
    push_cast at this
    linarith [Real.log_two_lt_d9]
  have hΛp : p ≤ Λ := by
    have := Real.log_le_sub_one_of_pos (show 0 < 1 - p from lt_of_lt_of_le (by positivity) hq0)
    linarith
  have hΛ0 : 0 < Λ := by linarith
  have hL : |Real.log u| ≤ 37 := by
    have := Real.log_le_log (by positivity) u0
    rw [Real.log_zpow] at this
    push_cast at this
    have h2 := Real.log_nonpos hu.le u1.le
    exact abs_le.2 ⟨by linarith [Real.log_two_lt_d9], by linarith⟩
  obtain ⟨r, er, hr⟩ := D.ln u hu (hL.trans (by norm_num))
  change _ ≤ _ + tiny at hr
  have ht := tiny_le
  have hr2 : |r - Real.log u| ≤ 3.4e-14 := by
    have : d * |Real.log u| ≤ 9e-16 * 37 := mul_le_mul hd hL (abs_nonneg _) (by norm_num)
    linarith
  have hr3 : |r| ≤ 37.1 := by
    have := abs_add_le (r - Real.log u) (Real.log u)
    rw [sub_add_cancel] at this
    linarith
  have hpi : 2.8e-16 / p ≤ 2.8e-10 := by
    rw [div_le_iff₀ hp]; linarith
  have hcΛ : |c * Λ| ≤ 1.001 := by
    have := abs_le.1 hc
    exact abs_le.2 ⟨by linarith, by linarith⟩
  have hcb : |c| ≤ 2e6 := by
    rw [abs_mul, abs_of_pos hΛ0] at hcΛ
    nlinarith [abs_nonneg c]
  have hrc : |r * c| ≤ 1e8 := by
    rw [abs_mul]
    exact (mul_le_mul hr3 hcb (abs_nonneg _) (by norm_num)).trans (by norm_num)
  obtain ⟨z, ez, hz⟩ := rnd_err D (x := r * c) (big_le hrc (by norm_num))
  refine ⟨z, by rw [er, e1, Machine.mul_fin, ez], ?_⟩
  have e : z * Λ + Real.log u = (z - r * c) * Λ + r * (c * Λ + 1) + -(r - Real.log u) := by ring
  rw [e]
  have a1 : |(z - r * c) * Λ| ≤ 5e-15 := by
    rw [abs_mul, abs_of_pos hΛ0]
    have b1 : |r * c| * Λ = |r| * |c * Λ| := by rw [abs_mul, abs_mul, abs_of_pos hΛ0]; ring
    have b2 : |r| * |c * Λ| ≤ 37.1 * 1.001 := mul_le_mul hr3 hcΛ (abs_nonneg _) (by norm_num)
    have b3 : |z - r * c| * Λ ≤ (1.2e-16 * |r * c| + 1e-30) * Λ := mul_le_mul_of_nonneg_right (by linarith) hΛ0.le
    have b4 : (1.2e-16 * |r * c| + 1e-30) * Λ = 1.2e-16 * (|r * c| * Λ) + 1e-30 * Λ := by ring
    rw [b4, b1] at b3
    linarith
  have a2 : |r * (c * Λ + 1)| ≤ 37.1 * (1.1e-15 + 2.8e-16 / p) := by
    rw [abs_mul]
    exact mul_le_mul hr3 hc (abs_nonneg _) (by norm_num)
  have a3 := abs_add_le ((z - r * c) * Λ + r * (c * Λ + 1)) (-(r - Real.log u))
  have a4 := abs_add_le ((z - r * c) * Λ) (r * (c * Λ + 1))
  rw [abs_neg] at a3
  have e5 : 2.8e-16 / p = 2.8e-16 * (1 / p) := by ring
  have e6 : 1.1e-14 / p = 1.1e-14 * (1 / p) := by ring
  have : 0 ≤ 1 / p := by positivity
  rw [e5] at a2
  rw [e6]
  linarith

theorem geometric_sum {p : ℝ} (h0 : 0 ≤ p) (h1 : p ≤ 1) :
    (∀ n : ℕ, upTo 0 (Spec.geometric p) (n - 1) = 1 - (1 - p) ^ n) ∧ (∀ t, upTo 0 (Spec.geometric p) t ≤ 1) ∧ ∀ x, 0 ≤ Spec.geometric p x := by
  have a : (fun n : ℕ => 1 - (1 - p) ^ n) 0 = 0 := by simp
  have b : ∀ n : ℕ, (fun n : ℕ => 1 - (1 - p) ^ n) (n + 1) = (fun n : ℕ => 1 - (1 - p) ^ n) n + Spec.geometric p (0 + n) := fun n => by
    simp only [Spec.geometric, zero_add, Nat.cast_nonneg, if_true, Int.toNat_natCast, pow_succ]
    ring
  refine ⟨fun n => ?_, upTo_le (F := fun n : ℕ => 1 - (1 - p) ^ n) a b fun n => ?_, fun x => ?_⟩
  · have := upTo_eq (F := fun n : ℕ => 1 - (1 - p) ^ n) a b n
    rwa [zero_add] at this
  · have : 0 ≤ (1 - p) ^ n := pow_nonneg (by linarith) n
    linarith
  · unfold Spec.geometric
    split_ifs
    · have : 0 ≤ (1 - p) ^ x.toNat := pow_nonneg (by linarith) _
      positivity
    · exact le_rfl

theorem geometric_draw (D : DoubleWithin M d) (hd : d ≤ 9e-16) {p u : ℝ} (p0 : 1e-6 ≤ p) (p1 : p ≤ 1 - 2 ^ (-53 : ℤ)) (u0 : 2 ^ (-52 : ℤ) ≤ u) (u1 : u < 1) :
    ∃ n : ℤ, Rounded.geometricDraw M (Rounded.geometric M (fin p)) (fin u) = some n ∧ 0 ≤ n ∧
      upTo 0 (Spec.geometric p) (n - 1) - (9e-14 + 1.1e-14 / p) ≤ 1 - u ∧ 1 - u ≤ upTo 0 (Spec.geometric p) n + (9e-14 + 1.1e-14 / p) := by
  obtain ⟨z, ez, hz⟩ := geometric_value D hd p0 p1 u0 u1
  have hp : 0 < p := by linarith
  have hu : 0 < u := lt_of_lt_of_le (by positivity) u0
  have hq : 0 < 1 - p := lt_of_lt_of_le (by positivity : (0 : ℝ) < 2 ^ (-53 : ℤ)) (by linarith)
  set ε := 9e-14 + 1.1e-14 / p with hε
  have hε0 : 0 ≤ ε := by positivity
  have hΛp : p ≤ -Real.log (1 - p) := by
    have := Real.log_le_sub_one_of_pos hq
    linarith
  have hlu := Real.log_neg hu u1
  have hL : -37 ≤ Real.log u := by
    have := Real.log_le_log (by positivity) u0
    rw [Real.log_zpow] at this
    push_cast at this
    linarith [Real.log_two_lt_d9]
  obtain ⟨z1, z2⟩ := abs_le.1 hz
  have hε1 : ε ≤ 0.1 * p := by
    have : 1.1e-14 / p ≤ 0.05 * p := by rw [div_le_iff₀ hp]; nlinarith
    rw [hε]; linarith
  have hzlow : -1 < z := by
    by_contra hc
    have hc := not_lt.1 hc
    nlinarith
  have hzhigh : z < 1e8 := by
    by_contra hc
    have hc := not_lt.1 hc
    nlinarith
  set n : ℤ := if 0 ≤ z then ⌊z⌋ else ⌈z⌉ with hn
  have hn0 : 0 ≤ n := by
    rw [hn]; split_ifs with h
    · exact Int.floor_nonneg.2 h
    · have : (-1 : ℤ) < ⌈z⌉ := Int.lt_ceil.2 (by push_cast; exact hzlow)
      omega
  have hnz : z < n + 1 := by
    rw [hn]; split_ifs with h
    · exact Int.lt_floor_add_one z
    · have := Int.le_ceil z
      linarith
  have hnz' : (n : ℝ) ≤ max z 0 := by
    rw [hn]; split_ifs with h
    · exact (Int.floor_le z).trans (le_max_left _ _)
    · have : ⌈z⌉ ≤ 0 := Int.ceil_le.2 (by push_cast; linarith)
      exact le_trans (by exact_mod_cast this) (le_max_right _ _)
  have hnb : n < 2 ^ 31 := by
    have : (n : ℝ) < 2 ^ 31 := lt_of_le_of_lt hnz' (by rw [max_lt_iff]; constructor <;> linarith)
    exact_mod_cast this
  refine ⟨n, ?_, hn0, ?_⟩
  · show (M.mul (M.ln (fin u)) (Rounded.geometric M (fin p)).oneOverLnQ).toInt = _
    rw [ez]
    unfold XR.toInt
    simp only
    rw [← hn]
    exact if_pos ⟨by omega, hnb⟩
  obtain ⟨m, hm⟩ := Int.eq_ofNat_of_zero_le hn0
  rw [hm] at hnz hnz' ⊢
  have s1 := (geometric_sum hp.le (by linarith)).1 m
  have s2 := (geometric_sum hp.le (by linarith)).1 (m + 1)
  push_cast at s2 hnz hnz'
  rw [add_sub_cancel_right] at s2
  rw [s1, s2]
  have e1 : ∀ k : ℕ, (1 - p) ^ k = Real.exp (k * Real.log (1 - p)) := fun k => by rw [mul_comm, Real.exp_mul, Real.exp_log hq, Real.rpow_natCast]
  have hclose : |Real.exp (min (z * Real.log (1 - p)) 0) - u| ≤ ε := by
    have e2 : u = Real.exp (min (Real.log u) 0) := by rw [min_eq_left hlu.le, Real.exp_log hu]
    rw [e2]
    refine (exp_lip (min_le_right _ _) (min_le_right _ _)).trans ((abs_min_sub_min_le_max _ _ _ _).trans ?_)
    rw [sub_zero, abs_zero, max_eq_left (abs_nonneg _)]
    rw [← abs_neg]
    refine le_trans (le_of_eq (congrArg _ ?_)) hz
    ring
  obtain ⟨c1, c2⟩ := abs_le.1 hclose
  have hl : Real.log (1 - p) < 0 := by linarith
  constructor
  · have : Real.exp (min (z * Real.log (1 - p)) 0) ≤ (1 - p) ^ m := by
      rw [e1]
      refine Real.exp_le_exp.2 ?_
      rcases le_total z 0 with hz0 | hz0
      · rw [max_eq_right hz0] at hnz'
        have : (m : ℝ) = 0 := le_antisymm hnz' (Nat.cast_nonneg m)
        rw [this, zero_mul]; exact min_le_right _ _
      · rw [max_eq_left hz0] at hnz'
        exact (min_le_left _ _).trans (by nlinarith)
    linarith
  · have : (1 - p) ^ (m + 1) ≤ Real.exp (min (z * Real.log (1 - p)) 0) := by
      rw [e1]
      refine Real.exp_le_exp.2 (le_min ?_ ?_)
      · push_cast; nlinarith
      · push_cast; nlinarith
    linarith

/-- From a statement on deviates of `uniformoo` to one on the samples of a period. -/
theorem integers_oo {draw : XR → Option ℤ} {sample : σ → Option ℤ × σ} {lo : ℤ} {p : ℤ → ℝ} {ε : ℝ} (D : DoubleWithin M d) (hG : G.Sound)
    (hl : (G.min, G.max) ∈ libraryRanges) (hE : Equidistributed G e T)
    (hs : ∀ s, sample s = (draw (fin ((uniformoo float64 G s).1 : ℝ)), (uniformoo float64 G s).2)) (hp : ∀ x, 0 ≤ p x) (h1 : ∀ t, upTo lo p t ≤ 1) (hε : 0 ≤ ε)
    (h : ∀ u : ℝ, M.Rep u → 2 ^ (-52 : ℤ) ≤ u → u < 1 → ∃ n, draw (fin u) = some n ∧ lo ≤ n ∧ upTo lo p (n - 1) - ε ≤ u ∧ u ≤ upTo lo p n + ε) :
    IntegersFollow sample e T lo p (ε + 4e-15 + 13 / (G.max - G.min : ℝ) + 1 / T) := by
  have h5 := pos_nonneg' hG
  refine IntegersFollow.mono (integers hG hE (fun s => by rw [hs]; exact (calls_one (F := float64) (by decide) hG s).1) hp h1
    (δ := ε + (12 / (G.max - G.min) + 4e-15)) (by linarith) fun s => ?_) (sum_le hG)
  obtain ⟨u, eu, hR, h0, hlt, ha⟩ := oo_facts D.rnd hG hl s
  obtain ⟨n, hn, hl, h2, h3⟩ := h u hR h0 hlt
  refine ⟨n, by rw [hs]; show draw _ = _; rw [eu, hn], hl, ?_⟩
  obtain ⟨b1, b2⟩ := abs_le.1 ha
  exact ⟨by linarith, by linarith⟩

theorem integers_oo_rev {draw : XR → Option ℤ} {sample : σ → Option ℤ × σ} {lo : ℤ} {p : ℤ → ℝ} {ε : ℝ} (D : DoubleWithin M d) (hG : G.Sound)
    (hl : (G.min, G.max) ∈ libraryRanges) (hE : Equidistributed G e T)
    (hs : ∀ s, sample s = (draw (fin ((uniformoo float64 G s).1 : ℝ)), (uniformoo float64 G s).2)) (hp : ∀ x, 0 ≤ p x) (h1 : ∀ t, upTo lo p t ≤ 1) (hε : 0 ≤ ε)
    (h : ∀ u : ℝ, M.Rep u → 2 ^ (-52 : ℤ) ≤ u → u < 1 → ∃ n, draw (fin u) = some n ∧ lo ≤ n ∧ upTo lo p (n - 1) - ε ≤ 1 - u ∧ 1 - u ≤ upTo lo p n + ε) :
    IntegersFollow sample e T lo p (ε + 4e-15 + 13 / (G.max - G.min : ℝ) + 1 / T) := by
  have h5 := pos_nonneg' hG
  refine IntegersFollow.mono (integers_rev hG hE (fun s => by rw [hs]; exact (calls_one (F := float64) (by decide) hG s).1) hp h1
    (δ := ε + (12 / (G.max - G.min) + 4e-15)) (by linarith) fun s => ?_) (sum_le hG)
  obtain ⟨u, eu, hR, h0, hlt, ha⟩ := oo_facts D.rnd hG hl s
  obtain ⟨n, hn, hl, h2, h3⟩ := h u hR h0 hlt
  refine ⟨n, by rw [hs]; show draw _ = _; rw [eu, hn], hl, ?_⟩
  obtain ⟨b1, b2⟩ := abs_le.1 ha
  exact ⟨by linarith, by linarith⟩

end

end Trng.PeriodLaw
