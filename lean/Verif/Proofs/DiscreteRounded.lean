import Verif.Proofs.DiscreteDraw
/-! Lemmas for C108: the tree of `discrete_dist` with rounded sums and differences. -/
namespace Trng.Discrete
open FP

variable {F : Fmt} {w : List ℚ} {L : Nat} {P : List ℚ}

/-- The bound for the relative error of `n` roundings. -/
def growth (F : Fmt) (n : Nat) : ℚ := (1 + 2 ^ (-(F.p : ℤ))) ^ n - 1

theorem growth_nonneg (F : Fmt) (n : Nat) : 0 ≤ growth F n := by
  have : (0 : ℚ) < 2 ^ (-(F.p : ℤ)) := by positivity
  have := one_le_pow₀ (n := n) (show (1 : ℚ) ≤ 1 + 2 ^ (-(F.p : ℤ)) by linarith)
  unfold growth
  linarith

theorem growth_succ (F : Fmt) (n : Nat) : growth F (n + 1) = growth F n + 2 ^ (-(F.p : ℤ)) * (1 + growth F n) := by
  unfold growth; rw [pow_succ]; ring

theorem growth_mono (F : Fmt) : Monotone (growth F) := by
  apply monotone_nat_of_le_succ
  intro n
  rw [growth_succ]
  have := growth_nonneg F n
  have : (0 : ℚ) < 2 ^ (-(F.p : ℤ)) := by positivity
  have : (0 : ℚ) ≤ 2 ^ (-(F.p : ℤ)) * (1 + growth F n) := by positivity
  linarith

theorem growth_zero (F : Fmt) : growth F 0 = 0 := by simp [growth]

theorem round_growth (hF : Nearest F) (hp : 1 ≤ F.p) {s A : ℚ} (hA : 0 ≤ A) {n : Nat} (h : |s - A| ≤ growth F n * A) :
    |F.rnd s - A| ≤ growth F (n + 1) * A := by
  have h1 := hF.rel hp s
  have h2 : |s| ≤ (1 + growth F n) * A := by
    calc |s| = |(s - A) + A| := by ring_nf
      _ ≤ |s - A| + |A| := abs_add_le _ _
      _ ≤ (1 + growth F n) * A := by rw [abs_of_nonneg hA]; linarith
  have h3 : |s| * 2 ^ (-(F.p : ℤ)) ≤ (1 + growth F n) * A * 2 ^ (-(F.p : ℤ)) :=
    mul_le_mul_of_nonneg_right h2 (by positivity)
  calc |F.rnd s - A| = |(F.rnd s - s) + (s - A)| := by ring_nf
    _ ≤ |F.rnd s - s| + |s - A| := abs_add_le _ _
    _ ≤ (1 + growth F n) * A * 2 ^ (-(F.p : ℤ)) + growth F n * A := by linarith
    _ = growth F (n + 1) * A := by rw [growth_succ]; ring

theorem IsTree.nonneg (hF : Nearest F) (hw : ∀ x ∈ w, 0 ≤ x) (hP : IsTree F.rnd w L P) {l : ℚ} (hl : l ∈ P) : 0 ≤ l := by
  obtain ⟨i, hi⟩ := List.mem_iff_getElem?.1 hl
  have key : ∀ n i, 2 ^ L - 1 - i ≤ n → ∀ l, P[i]? = some l → 0 ≤ l := by
    intro n
    induction n with
    | zero =>
      intro i h l hl
      rw [show i = 2 ^ L - 1 + (i - (2 ^ L - 1)) by omega, hP.leaf] at hl
      exact hw l (List.mem_of_getElem? hl)
    | succ n ih =>
      intro i h l hl
      rcases Nat.lt_or_ge i (2 ^ L - 1) with hi | hi
      · rw [hP.node i hi] at hl
        rw [← Option.some.inj hl]
        unfold nodeVal
        rcases hx : P[2 * i + 1]? with _ | x
        · exact le_rfl
        · have h1 := ih (2 * i + 1) (by omega) x hx
          rcases hy : P[2 * i + 2]? with _ | y
          · exact h1
          · exact hF.nonneg (add_nonneg h1 (ih (2 * i + 2) (by omega) y hy))
      · rw [show i = 2 ^ L - 1 + (i - (2 ^ L - 1)) by omega, hP.leaf] at hl
        exact hw l (List.mem_of_getElem? hl)
  exact key _ i le_rfl l hi

/-- The nodes are the sums of their leaves, up to the errors of the roundings below them. -/
theorem IsTree.near (hF : Nearest F) (hp : 1 ≤ F.p) (hw : ∀ x ∈ w, 0 ≤ x) (hP : IsTree F.rnd w L P) :
    ∀ m d, d + m = L → ∀ j, j < 2 ^ d →
      |P.getD (2 ^ d - 1 + j) 0 - (cum w ((j + 1) * 2 ^ m) - cum w (j * 2 ^ m))| ≤
        growth F m * (cum w ((j + 1) * 2 ^ m) - cum w (j * 2 ^ m)) := by
  have hmono := cum_mono hw
  intro m
  induction m with
  | zero =>
    intro d hd j hj
    rw [Nat.add_zero] at hd
    subst hd
    rw [List.getD_eq_getElem?_getD, hP.leaf, pow_zero, mul_one, mul_one, cum_succ, add_sub_cancel_left,
      List.getD_eq_getElem?_getD, sub_self, abs_zero, growth_zero, zero_mul]
  | succ m ih =>
    intro d hd j hj
    have h1 := ih (d + 1) (by omega) (2 * j) (by rw [Nat.pow_succ]; omega)
    have h2 := ih (d + 1) (by omega) (2 * j + 1) (by rw [Nat.pow_succ]; omega)
    have hp := Nat.one_le_two_pow (n := d)
    have hdL : 2 ^ (d + 1) ≤ 2 ^ L := Nat.pow_le_pow_right (by omega) (by omega)
    have hd2 : 2 ^ (d + 1) = 2 * 2 ^ d := by rw [Nat.pow_succ]; omega
    have hn := hP.node (2 ^ d - 1 + j) (by omega)
    rw [show 2 ^ (d + 1) - 1 + 2 * j = 2 * (2 ^ d - 1 + j) + 1 by omega,
      show (2 * j) * 2 ^ m = j * 2 ^ (m + 1) by ring] at h1
    rw [show 2 ^ (d + 1) - 1 + (2 * j + 1) = 2 * (2 ^ d - 1 + j) + 2 by omega,
      show (2 * j + 1 + 1) * 2 ^ m = (j + 1) * 2 ^ (m + 1) by ring] at h2
    have a1 : 0 ≤ cum w ((2 * j + 1) * 2 ^ m) - cum w (j * 2 ^ (m + 1)) :=
      sub_nonneg.2 (hmono (by rw [pow_succ]; nlinarith [Nat.zero_le (2 ^ m)]))
    have a2 : 0 ≤ cum w ((j + 1) * 2 ^ (m + 1)) - cum w ((2 * j + 1) * 2 ^ m) :=
      sub_nonneg.2 (hmono (by rw [pow_succ]; nlinarith [Nat.zero_le (2 ^ m)]))
    have e : cum w ((j + 1) * 2 ^ (m + 1)) - cum w (j * 2 ^ (m + 1)) =
      (cum w ((2 * j + 1) * 2 ^ m) - cum w (j * 2 ^ (m + 1))) +
        (cum w ((j + 1) * 2 ^ (m + 1)) - cum w ((2 * j + 1) * 2 ^ m)) := by ring
    rw [List.getD_eq_getElem?_getD, hn, Option.getD_some, e]
    generalize cum w ((2 * j + 1) * 2 ^ m) - cum w (j * 2 ^ (m + 1)) = A at *
    generalize cum w ((j + 1) * 2 ^ (m + 1)) - cum w ((2 * j + 1) * 2 ^ m) = B at *
    generalize 2 ^ d - 1 + j = i at *
    have key : ∀ a b : ℚ, |a - A| ≤ growth F m * A → |b - B| ≤ growth F m * B →
        |a + b - (A + B)| ≤ growth F m * (A + B) := fun a b ha hb => by
      calc |a + b - (A + B)| = |(a - A) + (b - B)| := by ring_nf
        _ ≤ |a - A| + |b - B| := abs_add_le _ _
        _ ≤ growth F m * (A + B) := by linarith
    have hk := key _ _ h1 h2
    have hle : growth F m * (A + B) ≤ growth F (m + 1) * (A + B) :=
      mul_le_mul_of_nonneg_right (growth_mono F (Nat.le_succ m)) (add_nonneg a1 a2)
    rw [List.getD_eq_getElem?_getD, List.getD_eq_getElem?_getD] at hk
    unfold nodeVal
    rcases hx : P[2 * i + 1]? with _ | x
    · have hy : P[2 * i + 2]? = none := by
        rw [List.getElem?_eq_none_iff] at hx ⊢; omega
      rw [hx, hy] at hk
      simp only [Option.getD_none, add_zero] at hk ⊢
      exact hk.trans hle
    · rcases hy : P[2 * i + 2]? with _ | y
      · rw [hx, hy] at hk
        simp only [Option.getD_none, Option.getD_some, add_zero] at hk ⊢
        exact hk.trans hle
      · rw [hx, hy] at hk
        simp only [Option.getD_some] at hk ⊢
        exact round_growth hF ‹1 ≤ F.p› (add_nonneg a1 a2) hk

/-- The descent with rounded subtractions: `X` is the exact product of the deviate and the sum `S` of the weights. -/
theorem descend_near (hF : Nearest F) (hp : 1 ≤ F.p) (hw : ∀ x ∈ w, 0 ≤ x) (hP : IsTree F.rnd w L P) (hwL : w.length ≤ 2 ^ L)
    {S X : ℚ} (hS : S = cum w w.length) :
    ∀ (m fuel d j : Nat) (u : ℚ), m < fuel → d + m = L → j < 2 ^ d → Rep F.p u → 0 ≤ u → u ≤ (1 + growth F (L + 1)) * S →
    |u - (X - cum w (j * 2 ^ m))| ≤ (d + 1) * (growth F (L + 2) * S) →
    X ≤ cum w ((j + 1) * 2 ^ m) + (d + 1) * (growth F (L + 2) * S) →
    (descend F.rnd (2 ^ L - 1) P fuel u (2 ^ d - 1 + j) = none → S ≤ X + (L + 1) * (growth F (L + 2) * S)) ∧
    (∀ r, descend F.rnd (2 ^ L - 1) P fuel u (2 ^ d - 1 + j) = some r → ∃ k, r = 2 ^ L - 1 + k ∧ k < 2 ^ L ∧
      cum w k ≤ X + (L + 1) * (growth F (L + 2) * S) ∧ X ≤ cum w (k + 1) + (L + 1) * (growth F (L + 2) * S)) := by
  have hmono := cum_mono hw
  have hS0 : 0 ≤ S := by rw [hS, ← cum_zero w]; exact hmono (Nat.zero_le _)
  have hSle : ∀ k, cum w k ≤ S := fun k => by
    rw [hS]
    rcases Nat.le_total k w.length with h | h
    · exact hmono h
    · rw [cum_past h]
  have hcum0 : ∀ k, 0 ≤ cum w k := fun k => by rw [← cum_zero w]; exact hmono (Nat.zero_le _)
  have hη : 0 ≤ growth F (L + 2) * S := mul_nonneg (growth_nonneg F _) hS0
  intro m
  induction m with
  | zero =>
    intro fuel d j u hf hd hj _ h0 _ h1 h2
    rw [Nat.add_zero] at hd
    subst hd
    rw [pow_zero, mul_one] at h1 h2
    obtain ⟨f, rfl⟩ := Nat.exists_eq_succ_of_ne_zero (by omega : fuel ≠ 0)
    rw [descend, if_neg (by omega)]
    refine ⟨fun h => absurd h (by simp), fun r hr => ⟨j, (Option.some.inj hr).symm, hj, ?_, ?_⟩⟩
    · have := (abs_le.1 h1).2
      linarith
    · exact h2
  | succ m ih =>
    intro fuel d j u hf hd hj hu h0 hM h1 h2
    obtain ⟨f, rfl⟩ := Nat.exists_eq_succ_of_ne_zero (by omega : fuel ≠ 0)
    have hp' := Nat.one_le_two_pow (n := d)
    have hdL : 2 ^ (d + 1) ≤ 2 ^ L := Nat.pow_le_pow_right (by omega) (by omega)
    have hd2 : 2 ^ (d + 1) = 2 * 2 ^ d := by rw [Nat.pow_succ]; omega
    have e0 : 2 * (2 ^ d - 1 + j) + 1 = 2 ^ (d + 1) - 1 + 2 * j := by omega
    have e0' : 2 * (2 ^ d - 1 + j) + 2 = 2 ^ (d + 1) - 1 + (2 * j + 1) := by omega
    have e1 : (2 * j + 1 + 1) * 2 ^ m = (j + 1) * 2 ^ (m + 1) := by ring
    have e2 : (2 * j) * 2 ^ m = j * 2 ^ (m + 1) := by ring
    have hdl : (d : ℚ) + 1 ≤ L + 1 := by
      have : d ≤ L := by omega
      have : (d : ℚ) ≤ L := by exact_mod_cast this
      linarith
    have hdη := mul_le_mul_of_nonneg_right hdl hη
    rw [descend, if_pos (by omega), e0, e0']
    rcases hl : P[2 ^ (d + 1) - 1 + 2 * j]? with _ | l
    · refine ⟨fun _ => ?_, fun r hr => absurd hr (by simp)⟩
      -- all leaves below are missing
      rw [List.getElem?_eq_none_iff, hP.len] at hl
      have hm : m = 0 := by
        by_contra hm
        have : 2 ^ (d + 1 + 1) ≤ 2 ^ L := Nat.pow_le_pow_right (by omega) (by omega)
        rw [Nat.pow_succ] at this
        omega
      subst hm
      have : w.length ≤ j * 2 ^ (0 + 1) := by rw [show L = d + 1 by omega] at hl; omega
      rw [cum_past this, ← hS] at h1
      have := (abs_le.1 h1).2
      linarith
    · have hval := hP.near hF hp hw m (d + 1) (by omega) (2 * j) (by omega)
      rw [List.getD_eq_getElem?_getD, hl, Option.getD_some, e2] at hval
      have ha : 0 ≤ cum w ((2 * j + 1) * 2 ^ m) - cum w (j * 2 ^ (m + 1)) :=
        sub_nonneg.2 (hmono (by rw [pow_succ]; nlinarith [Nat.zero_le (2 ^ m)]))
      have hb : cum w ((2 * j + 1) * 2 ^ m) - cum w (j * 2 ^ (m + 1)) ≤ S := by
        linarith [hSle ((2 * j + 1) * 2 ^ m), hcum0 (j * 2 ^ (m + 1))]
      have hgL : growth F m * (cum w ((2 * j + 1) * 2 ^ m) - cum w (j * 2 ^ (m + 1))) ≤ growth F (L + 1) * S :=
        mul_le_mul (growth_mono F (by omega)) hb ha (growth_nonneg F _)
      have hgs : growth F (L + 2) * S = growth F (L + 1) * S + 2 ^ (-(F.p : ℤ)) * ((1 + growth F (L + 1)) * S) := by
        rw [show L + 2 = L + 1 + 1 from rfl, growth_succ]; ring
      have hE : 0 ≤ (2 : ℚ) ^ (-(F.p : ℤ)) * ((1 + growth F (L + 1)) * S) := by
        have := growth_nonneg F (L + 1)
        positivity
      have hgle : growth F (L + 1) * S ≤ growth F (L + 2) * S := by linarith
      obtain ⟨v1, v2⟩ := abs_le.1 hval
      obtain ⟨u1, u2⟩ := abs_le.1 h1
      simp only [Option.bind_some]
      by_cases hul : u < l
      · rw [if_pos hul]
        refine ih f (d + 1) (2 * j) u (by omega) (by omega) (by omega) hu h0 hM ?_ ?_
        · rw [e2]
          refine h1.trans ?_
          push_cast
          linarith
        · push_cast
          linarith
      · rw [if_neg hul]
        have hul' := not_lt.1 hul
        have hl0 : 0 ≤ l := hP.nonneg hF hw (List.mem_of_getElem? hl)
        have hr := hF.rel hp (u - l)
        rw [abs_of_nonneg (sub_nonneg.2 hul')] at hr
        have hr2 : (u - l) * 2 ^ (-(F.p : ℤ)) ≤ 2 ^ (-(F.p : ℤ)) * ((1 + growth F (L + 1)) * S) := by
          rw [mul_comm]
          exact mul_le_mul_of_nonneg_left (by linarith) (by positivity)
        obtain ⟨r1, r2⟩ := abs_le.1 (hr.trans hr2)
        refine ih f (d + 1) (2 * j + 1) (F.rnd (u - l)) (by omega) (by omega) (by omega) (hF.rep _)
          (hF.nonneg (sub_nonneg.2 hul')) ((hF.le_of_le hu (by linarith)).trans hM) ?_ ?_
        · rw [abs_le]
          push_cast
          constructor <;> linarith
        · rw [e1]; push_cast; linarith

/-- Sampling: the bound is `(L + 1)` times that of `L + 2` roundings. -/
theorem draw_near (hF : Nearest F) (hp : 1 ≤ F.p) (hw : ∀ x ∈ w, 0 ≤ x) (hs : 0 < w.sum) {T : WTree ℚ}
    (htree : IsTree F.rnd w T.layers T.P) (hle : w.length ≤ 2 ^ T.layers) (hoff : T.offset = 2 ^ T.layers - 1) {c : ℚ}
    (c0 : 0 ≤ c) (c1 : c ≤ 1) {δ : ℚ} (hδ : (T.layers + 1) * growth F (T.layers + 2) ≤ δ) :
    (T.draw F.rnd c = none → 1 - δ ≤ c) ∧
    (∀ r, T.draw F.rnd c = some r → ∃ k : Nat, r = k ∧ k < 2 ^ T.layers ∧
      cum w k / w.sum - δ ≤ c ∧ c ≤ cum w (k + 1) / w.sum + δ) := by
  have hS : w.sum = cum w w.length := by rw [← take_sum, List.take_length]
  have hlen : 0 < w.length := by
    rcases Nat.eq_zero_or_pos w.length with h | h
    · rw [List.length_eq_zero_iff.1 h] at hs; simp at hs
    · exact h
  obtain ⟨p0, h0⟩ : ∃ p0, T.P[0]? = some p0 := by
    have : 0 < T.P.length := by rw [htree.len]; omega
    exact ⟨_, List.getElem?_eq_getElem this⟩
  have hroot := htree.near hF hp hw T.layers 0 (by omega) 0 (by norm_num)
  rw [pow_zero, Nat.sub_self, Nat.add_zero, List.getD_eq_getElem?_getD, h0, Option.getD_some, Nat.zero_mul, Nat.zero_add,
    Nat.one_mul, cum_zero, sub_zero, cum_past hle, ← hS] at hroot
  have hcS : 0 ≤ c * w.sum := mul_nonneg c0 hs.le
  have hcS1 : c * w.sum ≤ w.sum := by nlinarith
  have hu : |F.rnd (c * p0) - c * w.sum| ≤ growth F (T.layers + 1) * (c * w.sum) := by
    apply round_growth hF hp hcS
    rw [← mul_sub, abs_mul, abs_of_nonneg c0]
    calc c * |p0 - w.sum| ≤ c * (growth F T.layers * w.sum) := mul_le_mul_of_nonneg_left hroot c0
      _ = growth F T.layers * (c * w.sum) := by ring
  have hu2 : growth F (T.layers + 1) * (c * w.sum) ≤ growth F (T.layers + 1) * w.sum :=
    mul_le_mul_of_nonneg_left hcS1 (growth_nonneg F _)
  have hu3 : growth F (T.layers + 1) * w.sum ≤ growth F (T.layers + 2) * w.sum :=
    mul_le_mul_of_nonneg_right (growth_mono F (Nat.le_succ _)) hs.le
  have hpl := Nat.lt_two_pow_self (n := T.layers)
  have hη : 0 ≤ growth F (T.layers + 2) * w.sum := mul_nonneg (growth_nonneg F _) hs.le
  have hδ' : (T.layers + 1) * (growth F (T.layers + 2) * w.sum) ≤ δ * w.sum := by
    rw [← mul_assoc]; exact mul_le_mul_of_nonneg_right hδ hs.le
  obtain ⟨ha, hb⟩ := descend_near hF hp hw htree hle hS (X := c * w.sum) T.layers (T.offset + 1) 0 0 (F.rnd (c * p0))
    (by omega) (by omega) (by norm_num) (hF.rep _)
    (hF.nonneg (mul_nonneg c0 (htree.nonneg hF hw (List.mem_of_getElem? h0))))
    (by have := (abs_le.1 hu).2; linarith)
    (by rw [Nat.zero_mul, cum_zero, sub_zero]; push_cast; linarith)
    (by rw [Nat.zero_add, Nat.one_mul, cum_past hle, ← hS]; push_cast; linarith)
  rw [pow_zero, Nat.sub_self, Nat.add_zero, ← hoff] at ha hb
  rw [WTree.draw, h0, Option.bind_eq_bind, Option.bind_some]
  constructor
  · intro h
    rcases hx : descend F.rnd T.offset T.P (T.offset + 1) (F.rnd (c * p0)) 0 with _ | x
    · have := ha hx
      have h2 : (1 - δ) * w.sum ≤ c * w.sum := by linarith
      exact le_of_mul_le_mul_right h2 hs
    · rw [hx] at h
      simp at h
  · intro r h
    rcases hx : descend F.rnd T.offset T.P (T.offset + 1) (F.rnd (c * p0)) 0 with _ | x
    · rw [hx] at h; simp at h
    · rw [hx] at h
      obtain ⟨k, rfl, hk, k1, k2⟩ := hb x hx
      refine ⟨k, ?_, hk, ?_, ?_⟩
      · simp only [Option.bind_eq_bind, Option.bind_some] at h
        have := Option.some.inj h
        rw [← this, hoff]
        push_cast
        ring
      · rw [sub_le_iff_le_add, div_le_iff₀ hs]; linarith
      · have : (c - δ) * w.sum ≤ cum w (k + 1) := by linarith
        rw [← sub_le_iff_le_add, le_div_iff₀ hs]; exact this

theorem growth_float64 {L : Nat} (h : L ≤ 30) : ((L : ℚ) + 1) * growth float64 (L + 2) ≤ 2 ^ (-43 : ℤ) := by
  have h1 : growth float64 (L + 2) ≤ growth float64 32 := growth_mono _ (by omega)
  have h2 : growth float64 32 ≤ 2 ^ (-48 : ℤ) * (32 / 31) := by
    show (1 + 2 ^ (-((53 : ℕ) : ℤ)) : ℚ) ^ 32 - 1 ≤ _
    decide +kernel
  have h3 : (L : ℚ) + 1 ≤ 31 := by have : (L : ℚ) ≤ 30 := by exact_mod_cast h
                                   linarith
  calc ((L : ℚ) + 1) * growth float64 (L + 2) ≤ 31 * (2 ^ (-48 : ℤ) * (32 / 31)) :=
        mul_le_mul h3 (h1.trans h2) (growth_nonneg _ _) (by norm_num)
    _ = 2 ^ (-43 : ℤ) := by norm_num

/-- In a complete tree the search ends at a leaf. -/
theorem descend_full {α : Type} [Field α] [LinearOrder α] {rnd : α → α} {P : List α} {L : Nat} (hlen : P.length = 2 ^ L - 1 + 2 ^ L) :
    ∀ m fuel d j u, d + m = L → m < fuel → j < 2 ^ d →
      ∃ k, k < 2 ^ L ∧ descend rnd (2 ^ L - 1) P fuel u (2 ^ d - 1 + j) = some (2 ^ L - 1 + k) := by
  have hL := Nat.one_le_two_pow (n := L)
  intro m
  induction m with
  | zero =>
    intro fuel d j u hd hf hj
    obtain ⟨f, rfl⟩ : ∃ f, fuel = f + 1 := ⟨fuel - 1, by omega⟩
    have : d = L := by omega
    subst this
    exact ⟨j, hj, by rw [descend, if_neg (by omega)]⟩
  | succ m ih =>
    intro fuel d j u hd hf hj
    obtain ⟨f, rfl⟩ : ∃ f, fuel = f + 1 := ⟨fuel - 1, by omega⟩
    have h2 : 2 ^ (d + 1) ≤ 2 ^ L := Nat.pow_le_pow_right (by norm_num) (by omega)
    have h1 := Nat.one_le_two_pow (n := d)
    rw [pow_succ] at h2
    rw [descend, if_pos (by omega), List.getElem?_eq_getElem (show 2 * (2 ^ d - 1 + j) + 1 < P.length by omega), Option.bind_some]
    split_ifs
    · rw [show 2 * (2 ^ d - 1 + j) + 1 = 2 ^ (d + 1) - 1 + 2 * j by rw [pow_succ]; omega]
      exact ih f (d + 1) (2 * j) u (by omega) (by omega) (by rw [pow_succ]; omega)
    · rw [show 2 * (2 ^ d - 1 + j) + 2 = 2 ^ (d + 1) - 1 + (2 * j + 1) by rw [pow_succ]; omega]
      exact ih f (d + 1) (2 * j + 1) _ (by omega) (by omega) (by rw [pow_succ]; omega)

theorem growth_le (F : Fmt) (n : Nat) (h : 2 * n * (2 : ℚ) ^ (-(F.p : ℤ)) ≤ 1) : growth F n ≤ 2 * n * (2 : ℚ) ^ (-(F.p : ℤ)) := by
  have hu : (0 : ℚ) < 2 ^ (-(F.p : ℤ)) := by positivity
  induction n with
  | zero => rw [growth_zero]; simp
  | succ n ih =>
    push_cast at h ⊢
    have := ih (by nlinarith)
    rw [growth_succ]
    nlinarith

theorem accumulate_near (hF : Nearest F) (hp : 1 ≤ F.p) (l : List ℚ) : ∀ (m : Nat) (a A : ℚ), (∀ x ∈ l, 0 ≤ x) → 0 ≤ A → |a - A| ≤ growth F m * A →
    |l.foldl (fun a x => F.rnd (a + x)) a - (A + l.sum)| ≤ growth F (m + l.length) * (A + l.sum) := by
  induction l with
  | nil => intro m a A _ _ h; simpa using h
  | cons x l ih =>
    intro m a A hl hA h
    have hx := hl x (by simp)
    rw [List.foldl_cons, List.sum_cons, ← add_assoc, List.length_cons, show m + (l.length + 1) = m + 1 + l.length by ring]
    refine ih (m + 1) _ (A + x) (fun y hy => hl y (by simp [hy])) (by linarith) (round_growth hF hp (by linarith) ?_)
    rw [add_sub_add_right_eq_sub]
    have := mul_nonneg (growth_nonneg F m) hx
    linarith

theorem accumulate_rep (hF : Nearest F) (l : List ℚ) : F.rnd (accumulate F.rnd l) = accumulate F.rnd l := by
  unfold accumulate
  rcases List.eq_nil_or_concat l with rfl | ⟨l, x, rfl⟩
  · exact hF.zero
  · rw [List.concat_eq_append, List.foldl_append, List.foldl_cons, List.foldl_nil]
    exact hF.exact (hF.rep _)

theorem accumulate_mono (hF : Nearest F) {w : List ℚ} (hw : ∀ x ∈ w, 0 ≤ x) {i : Nat} (hi : i < w.length) :
    accumulate F.rnd (w.take i) ≤ accumulate F.rnd (w.take (i + 1)) := by
  rw [← accumulate_rep hF (w.take i)]
  have : accumulate F.rnd (w.take (i + 1)) = F.rnd (accumulate F.rnd (w.take i) + w[i]) := by
    rw [List.take_succ_eq_append_getElem hi]
    unfold accumulate
    rw [List.foldl_append, List.foldl_cons, List.foldl_nil]
  rw [this]
  exact hF.mono (by linarith [hw _ (List.getElem_mem hi)])

theorem quotient_near (hF : Nearest F) (hp : 1 ≤ F.p) {a A b B x g : ℚ} (hA : 0 ≤ A) (hB : 0 < B) (hx : 0 ≤ x) (hg0 : 0 ≤ g) (hg : g ≤ 1 / 8) (hx1 : x ≤ 1 / 8)
    (ha : |a - A| ≤ x * A) (hb : |b - B| ≤ g * B) : |F.rnd (a / b) - A / B| ≤ (2 * (x + g) + 2 * 2 ^ (-(F.p : ℤ))) * (A / B) := by
  obtain ⟨a1, a2⟩ := abs_le.1 ha
  obtain ⟨b1, b2⟩ := abs_le.1 hb
  have hQ : 0 ≤ A / B := div_nonneg hA hB.le
  have hAQ : A / B * B = A := div_mul_cancel₀ _ hB.ne'
  have hb0 : 0 < b := by nlinarith
  have hup : a / b ≤ (1 + 2 * (x + g)) * (A / B) := by
    rw [div_le_iff₀ hb0]
    have h1 : (1 + 2 * (x + g)) * (A / B) * ((1 - g) * B) ≤ (1 + 2 * (x + g)) * (A / B) * b :=
      mul_le_mul_of_nonneg_left (by linarith) (by positivity)
    have h2 : (1 + 2 * (x + g)) * (A / B) * ((1 - g) * B) = (1 + 2 * (x + g)) * (1 - g) * A := by
      rw [← hAQ]; field_simp
    have h3 : (1 + x) * A ≤ (1 + 2 * (x + g)) * (1 - g) * A := mul_le_mul_of_nonneg_right (by nlinarith) hA
    linarith
  have hlow : (1 - (x + g)) * (A / B) ≤ a / b := by
    rw [le_div_iff₀ hb0]
    have h1 : (1 - (x + g)) * (A / B) * b ≤ (1 - (x + g)) * (A / B) * ((1 + g) * B) :=
      mul_le_mul_of_nonneg_left (by linarith) (mul_nonneg (by linarith) hQ)
    have h2 : (1 - (x + g)) * (A / B) * ((1 + g) * B) = (1 - (x + g)) * (1 + g) * A := by
      rw [← hAQ]; field_simp
    have h3 : (1 - (x + g)) * (1 + g) * A ≤ (1 - x) * A := mul_le_mul_of_nonneg_right (by nlinarith) hA
    linarith
  have hq0 : 0 ≤ a / b := le_trans (mul_nonneg (by linarith) hQ) hlow
  have hr := hF.rel hp (a / b)
  rw [abs_of_nonneg hq0] at hr
  have hu : (0 : ℚ) < 2 ^ (-(F.p : ℤ)) := by positivity
  have h4 : a / b * 2 ^ (-(F.p : ℤ)) ≤ 2 * (A / B) * 2 ^ (-(F.p : ℤ)) := mul_le_mul_of_nonneg_right (by nlinarith) hu.le
  obtain ⟨r1, r2⟩ := abs_le.1 hr
  have h5 : 0 ≤ (x + g) * (A / B) := by positivity
  rw [abs_le]
  constructor <;> nlinarith

end Trng.Discrete
