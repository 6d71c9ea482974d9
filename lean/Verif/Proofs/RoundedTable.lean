import Verif.Proofs.PeriodInteger

/-! Tables of cumulated probabilities in rounded arithmetic. -/
namespace Trng.PeriodLaw
open XR Spec Inverse Trng.Discrete

variable {M : Machine} {d : ℝ}

/-- A sum of rounded sums. -/
theorem cumulateFrom_real (D : DoubleWithin M d) {B : ℝ} (hB : B ≤ 2 ^ (1000 : ℤ)) (hB1 : 1e-10 ≤ B) : ∀ (l : List ℝ) (s : ℝ),
    (∀ k, |s + (l.take k).sum| + l.length * (1.3e-16 * B) ≤ B) →
    ∃ t : List ℝ, Rounded.cumulateFrom M (fin s) (l.map fin) = t.map fin ∧ t.length = l.length ∧
      ∀ k, k < l.length → |t.getD k 0 - (s + (l.take (k + 1)).sum)| ≤ (k + 1) * (1.3e-16 * B)
  | [], s, _ => ⟨[], rfl, rfl, fun k hk => absurd hk (by simp)⟩
  | x :: l, s, h => by
    have hB0 : 0 < B := by linarith
    have h1 := h 1
    have hl0 : 0 ≤ ((x :: l).length : ℝ) * (1.3e-16 * B) := by positivity
    simp only [List.take_succ_cons, List.take_zero, List.sum_cons, List.sum_nil, add_zero] at h1
    have hsx : |x + s| ≤ B := by rw [add_comm]; linarith
    obtain ⟨r, er, hr⟩ := rnd_err D (x := x + s) (hsx.trans (hB.trans (zpow_le_zpow_right₀ one_le_two (by norm_num))))
    have ht := tiny_le
    have hr2 : |r - (x + s)| ≤ 1.3e-16 * B := by
      have : 1e-30 ≤ 1e-17 * B := by linarith
      nlinarith
    obtain ⟨t, et, tl, th⟩ := cumulateFrom_real D hB hB1 l r fun k => by
      have h2 := h (k + 1)
      simp only [List.take_succ_cons, List.sum_cons, List.length_cons] at h2
      push_cast at h2
      have : |r + (l.take k).sum| ≤ |s + (x + (l.take k).sum)| + |r - (x + s)| := by
        refine le_trans (le_of_eq (congrArg _ ?_)) (abs_add_le _ _)
        ring
      linarith
    refine ⟨r :: t, ?_, by simp [tl], fun k hk => ?_⟩
    · rw [List.map_cons, Rounded.cumulateFrom, Machine.add_fin, er, et]; rfl
    · cases k with
      | zero =>
        simp only [List.getD_cons_zero, List.take_succ_cons, List.take_zero, List.sum_cons, List.sum_nil, add_zero, Nat.cast_zero, zero_add, one_mul]
        rw [add_comm s]; exact hr2
      | succ k =>
        have h3 := th k (by simpa using hk)
        simp only [List.getD_cons_succ, List.take_succ_cons, List.sum_cons] at h3 ⊢
        have : |t.getD k 0 - (s + (x + (l.take (k + 1)).sum))| ≤ |t.getD k 0 - (r + (l.take (k + 1)).sum)| + |r - (x + s)| := by
          refine le_trans (le_of_eq (congrArg _ ?_)) (abs_add_le _ _)
          ring
        push_cast
        linarith

theorem cumulate_real (D : DoubleWithin M d) {B : ℝ} (hB : B ≤ 2 ^ (1000 : ℤ)) (hB1 : 1e-10 ≤ B) (l : List ℝ)
    (h : ∀ k, |(l.take k).sum| + l.length * (1.3e-16 * B) ≤ B) :
    ∃ t : List ℝ, Rounded.cumulate M (l.map fin) = t.map fin ∧ t.length = l.length ∧
      ∀ k, k < l.length → |t.getD k 0 - (l.take (k + 1)).sum| ≤ k * (1.3e-16 * B) := by
  have hB0 : 0 < B := by linarith
  cases l with
  | nil => exact ⟨[], rfl, rfl, fun k hk => absurd hk (by simp)⟩
  | cons x l =>
    obtain ⟨t, et, tl, th⟩ := cumulateFrom_real D hB hB1 l x fun k => by
      have h2 := h (k + 1)
      simp only [List.take_succ_cons, List.sum_cons, List.length_cons] at h2
      push_cast at h2
      have : 0 ≤ 1.3e-16 * B := by positivity
      linarith
    refine ⟨x :: t, ?_, by simp [tl], fun k hk => ?_⟩
    · rw [List.map_cons, Rounded.cumulate, et]; rfl
    · cases k with
      | zero => simp
      | succ k =>
        have h3 := th k (by simpa using hk)
        simp only [List.getD_cons_succ, List.take_succ_cons, List.sum_cons] at h3 ⊢
        push_cast
        exact h3

/-- Division by the last entry. -/
theorem normalize_real (D : DoubleWithin M d) {t : List ℝ} {S : ℝ} (ht : t ≠ []) (hS : t.getD (t.length - 1) 0 = S) (hS0 : 0 < S) {b : ℝ} (hb : b ≤ 1e10)
    (h : ∀ k, k < t.length → |t.getD k 0 / S| ≤ b) :
    ∃ q : List ℝ, Rounded.normalize M (t.map fin) = q.map fin ∧ q.length = t.length ∧ q.getD (t.length - 1) 0 = 1 ∧
      ∀ k, k < t.length → |q.getD k 0 - t.getD k 0 / S| ≤ 1.2e-16 * b + 1e-30 := by
  have key : ∀ x ∈ t, ∃ r, M.div (fin x) (fin S) = fin r ∧ |r - x / S| ≤ 1.2e-16 * b + 1e-30 := fun x hx => by
    obtain ⟨k, hk, rfl⟩ := List.getElem_of_mem hx
    have h1 := h k hk
    rw [List.getD_eq_getElem _ _ hk] at h1
    obtain ⟨r, er, hr⟩ := rnd_err D (x := t[k] / S) (big_le (h1.trans hb) (by norm_num))
    refine ⟨r, by rw [Machine.div_fin _ hS0.ne', er], ?_⟩
    have := tiny_le
    linarith
  classical
  set g : ℝ → ℝ := fun x => if h : ∃ r, M.div (fin x) (fin S) = fin r ∧ |r - x / S| ≤ 1.2e-16 * b + 1e-30 then h.choose else 0 with hg
  have hgs : ∀ x ∈ t, M.div (fin x) (fin S) = fin (g x) ∧ |g x - x / S| ≤ 1.2e-16 * b + 1e-30 := fun x hx => by
    have := key x hx
    simp only [hg]
    rw [dif_pos this]
    exact this.choose_spec
  have hpos : 0 < t.length := List.length_pos_iff.2 ht
  have hlast : t.getLast? = some S := by
    rw [List.getLast?_eq_getElem?, List.getElem?_eq_getElem (by omega), ← hS, List.getD_eq_getElem _ _ (by omega)]
  refine ⟨t.map g, ?_, by simp, ?_, fun k hk => ?_⟩
  · rw [Rounded.normalize, List.getLast?_map, hlast]
    simp only [Option.map_some, List.map_map]
    exact List.map_congr_left fun x hx => (hgs x hx).1
  · rw [List.getD_eq_getElem _ _ (by rw [List.length_map]; omega), List.getElem_map]
    have hm : t[t.length - 1] = S := by rw [← hS, List.getD_eq_getElem _ _ (by omega)]
    have h1 := (hgs S (by rw [← hm]; exact List.getElem_mem _)).1
    rw [Machine.div_fin _ hS0.ne', div_self hS0.ne'] at h1
    rw [hm]
    have one : M.rnd 1 = fin 1 := by rw [D.rnd]; exact (ieee_rounding (by norm_num) (by norm_num) (by norm_num)).one
    rw [one] at h1
    exact (XR.fin.inj h1).symm
  · rw [List.getD_eq_getElem _ _ (by simpa using hk), List.getElem_map, List.getD_eq_getElem _ _ hk]
    exact (hgs _ (List.getElem_mem _)).2

/-- Sums of approximate weights. -/
theorem take_sum_near {l : List ℝ} {w : ℕ → ℝ} {c η τ : ℝ} (h : ∀ i, i < l.length → |l.getD i 0 - c * w i| ≤ c * (η * w i + τ)) :
    ∀ k, k ≤ l.length → |(l.take k).sum - c * ∑ i ∈ Finset.range k, w i| ≤ c * (η * ∑ i ∈ Finset.range k, w i + k * τ)
  | 0, _ => by simp
  | k + 1, hk => by
    have ih := take_sum_near h k (by omega)
    have h1 := h k (by omega)
    have e : (l.take (k + 1)).sum = (l.take k).sum + l.getD k 0 := by
      rw [List.take_add_one, List.getElem?_eq_getElem (by omega), List.sum_append, List.getD_eq_getElem _ _ (by omega)]
      simp
    rw [e, Finset.sum_range_succ]
    have : |(l.take k).sum + l.getD k 0 - c * (∑ i ∈ Finset.range k, w i + w k)| ≤ |(l.take k).sum - c * ∑ i ∈ Finset.range k, w i| + |l.getD k 0 - c * w k| := by
      refine le_trans (le_of_eq (congrArg _ ?_)) (abs_add_le _ _)
      ring
    push_cast
    have e2 : c * (η * (∑ i ∈ Finset.range k, w i + w k) + (k + 1) * τ) = c * (η * ∑ i ∈ Finset.range k, w i + k * τ) + c * (η * w k + τ) := by ring
    rw [e2]
    linarith

/-- The search in the table that is made of approximate weights `l`. -/
theorem table_search (D : DoubleWithin M d) {l : List ℝ} {w : ℕ → ℝ} {c η θ : ℝ} (hc0 : 1 ≤ c) (hc : c ≤ 2 ^ (998 : ℤ)) (hl : l ≠ []) (hw : ∀ i, 0 ≤ w i)
    (h1 : ∑ i ∈ Finset.range l.length, w i = 1) (hη : 0 ≤ η) (hθ : θ ≤ 0.01) (hle : η + l.length * 1.5e-16 ≤ θ)
    (h : ∀ i, i < l.length → |l.getD i 0 - c * w i| ≤ c * (η * w i + 1e-30)) {u : ℝ} (u1 : u < 1) :
    ∃ k, search (fin u) (Rounded.normalize M (Rounded.cumulate M (l.map fin))) = some k ∧ k < l.length ∧
      ∑ i ∈ Finset.range k, w i - (2.03 * θ + 2e-16) ≤ max u 0 ∧ u ≤ ∑ i ∈ Finset.range (k + 1), w i + (2.03 * θ + 2e-16) := by
  have hpos : 0 < l.length := List.length_pos_iff.2 hl
  have hL : (1 : ℝ) ≤ l.length := by exact_mod_cast hpos
  have near := take_sum_near h
  have hF : ∀ k, k ≤ l.length → 0 ≤ ∑ i ∈ Finset.range k, w i ∧ ∑ i ∈ Finset.range k, w i ≤ 1 := fun k hk =>
    ⟨Finset.sum_nonneg fun i _ => hw i, h1 ▸ Finset.sum_le_sum_of_subset_of_nonneg (Finset.range_mono hk) fun i _ _ => hw i⟩
  have c0 : 0 < c := by linarith
  have near2 : ∀ k, k ≤ l.length → |(l.take k).sum - c * ∑ i ∈ Finset.range k, w i| ≤ c * (η + l.length * 1e-30) := fun k hk => by
    refine (near k hk).trans (mul_le_mul_of_nonneg_left ?_ c0.le)
    have h2 : η * ∑ i ∈ Finset.range k, w i ≤ η * 1 := mul_le_mul_of_nonneg_left (hF k hk).2 hη
    have h3 : (k : ℝ) ≤ l.length := by exact_mod_cast hk
    linarith
  have hθ0 : 0 ≤ θ := by linarith
  obtain ⟨t, et, tl, th⟩ := cumulate_real D (B := 1.1 * c) (by
      have : (2 : ℝ) ^ (1000 : ℤ) = 4 * 2 ^ (998 : ℤ) := by rw [show (1000 : ℤ) = 2 + 998 by norm_num, zpow_add₀ two_ne_zero]; norm_num
      rw [this]
      clear this
      generalize (2 : ℝ) ^ (998 : ℤ) = z at hc ⊢
      linarith) (by linarith) l fun k => by
    have key : ∀ k, k ≤ l.length → |(l.take k).sum| ≤ c * (1 + (η + l.length * 1e-30)) := fun k hk => by
      have h2 := abs_le.1 (near2 k hk)
      obtain ⟨f0, f1⟩ := hF k hk
      have f2 : c * ∑ i ∈ Finset.range k, w i ≤ c * 1 := mul_le_mul_of_nonneg_left f1 c0.le
      have f3 : 0 ≤ c * ∑ i ∈ Finset.range k, w i := mul_nonneg c0.le f0
      exact abs_le.2 ⟨by linarith, by linarith⟩
    have hk : |(l.take k).sum| ≤ c * (1 + (η + l.length * 1e-30)) := by
      rcases le_total k l.length with hk | hk
      · exact key k hk
      · rw [List.take_of_length_le hk]
        have := key l.length le_rfl
        rwa [List.take_length] at this
    have : c * (1 + (η + l.length * 1e-30) + l.length * (1.3e-16 * 1.1)) ≤ c * 1.1 := mul_le_mul_of_nonneg_left (by linarith) c0.le
    linarith
  have tpos : 0 < t.length := by omega
  have dist : ∀ k, k < l.length → |t.getD k 0 - c * ∑ i ∈ Finset.range (k + 1), w i| ≤ c * θ := fun k hk => by
    have a1 := th k hk
    have a2 := near2 (k + 1) (by omega)
    have : |t.getD k 0 - c * ∑ i ∈ Finset.range (k + 1), w i| ≤ |t.getD k 0 - (l.take (k + 1)).sum| + |(l.take (k + 1)).sum - c * ∑ i ∈ Finset.range (k + 1), w i| := by
      refine le_trans (le_of_eq (congrArg _ ?_)) (abs_add_le _ _)
      ring
    have h3 : (k : ℝ) ≤ l.length := by exact_mod_cast hk.le
    have a3 : (k : ℝ) * (1.3e-16 * (1.1 * c)) ≤ l.length * (1.3e-16 * (1.1 * c)) := mul_le_mul_of_nonneg_right h3 (by positivity)
    have a4 : c * (η + l.length * 1e-30 + l.length * (1.3e-16 * 1.1)) ≤ c * θ := mul_le_mul_of_nonneg_left (by linarith) c0.le
    linarith
  set S := t.getD (t.length - 1) 0 with hS
  have hSc : |S - c| ≤ c * θ := by
    have := dist (t.length - 1) (by omega)
    rw [← hS, show t.length - 1 + 1 = l.length by omega, h1, mul_one] at this
    exact this
  obtain ⟨s1, s2⟩ := abs_le.1 hSc
  have hcθ : c * θ ≤ c * 0.01 := mul_le_mul_of_nonneg_left hθ c0.le
  have hS0 : 0.99 * c ≤ S := by linarith
  have hSp : 0 < S := by linarith
  have quot : ∀ k, k < l.length → |t.getD k 0 / S - ∑ i ∈ Finset.range (k + 1), w i| ≤ 2.03 * θ := fun k hk => by
    have a1 := dist k hk
    obtain ⟨f0, f1⟩ := hF (k + 1) (by omega)
    set F := ∑ i ∈ Finset.range (k + 1), w i
    have e : t.getD k 0 / S - F = ((t.getD k 0 - c * F) - F * (S - c)) / S := by field_simp; ring
    rw [e, abs_div, abs_of_pos hSp, div_le_iff₀ hSp]
    have b1 := abs_sub (t.getD k 0 - c * F) (F * (S - c))
    rw [abs_mul, abs_of_nonneg f0] at b1
    have b2 : F * |S - c| ≤ 1 * (c * θ) := mul_le_mul f1 hSc (abs_nonneg _) zero_le_one
    have b3 : 2.03 * θ * (0.99 * c) ≤ 2.03 * θ * S := mul_le_mul_of_nonneg_left hS0 (by positivity)
    have b4 : 0 ≤ c * θ := by positivity
    have b5 : 2.03 * θ * (0.99 * c) = 2.0097 * (c * θ) := by ring
    linarith
  obtain ⟨q, eq, ql, q1, qh⟩ := normalize_real D (t := t) (List.length_pos_iff.1 tpos) hS.symm hSp (b := 1.1) (by norm_num) fun k hk => by
    have a1 := abs_le.1 (quot k (by omega))
    obtain ⟨f0, f1⟩ := hF (k + 1) (by omega)
    exact abs_le.2 ⟨by linarith, by linarith⟩
  have fin' : ∀ k, k < l.length → |q.getD k 0 - ∑ i ∈ Finset.range (k + 1), w i| ≤ 2.03 * θ + 2e-16 := fun k hk => by
    have a1 := qh k (by omega)
    have a2 := quot k hk
    have : |q.getD k 0 - ∑ i ∈ Finset.range (k + 1), w i| ≤ |q.getD k 0 - t.getD k 0 / S| + |t.getD k 0 / S - ∑ i ∈ Finset.range (k + 1), w i| := by
      refine le_trans (le_of_eq (congrArg _ ?_)) (abs_add_le _ _)
      ring
    linarith
  have qpos : 0 < q.length := by omega
  obtain ⟨k, hk, kl, k1, k2, -, -⟩ := search_bounds (t := q) (List.length_pos_iff.1 qpos) (by rw [ql]; exact q1) u1
  refine ⟨k, by rw [et, eq, search_fin, hk], by omega, ?_, ?_⟩
  · cases k with
    | zero =>
      rw [Finset.range_zero, Finset.sum_empty]
      have := le_max_right u 0
      linarith
    | succ k =>
      have a1 := abs_le.1 (fin' k (by omega))
      have a2 := k2 (by omega)
      rw [Nat.add_sub_cancel] at a2
      have := le_max_left u 0
      linarith
  · have a1 := abs_le.1 (fin' k (by omega))
    linarith

end Trng.PeriodLaw
