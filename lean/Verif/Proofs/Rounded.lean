import Verif.Spec.Rounded
import Mathlib.Tactic.Linarith
import Mathlib.Tactic.Positivity

/-! Order lemmas for floating-point operations, and the samples of the distributions of Model/Rounded.lean. -/
namespace Trng
open XR Spec
open Classical

namespace XR

theorem zero_def : (0 : XR) = fin 0 := by rw [ofNat_fin]; simp
theorem one_def : (1 : XR) = fin 1 := by rw [ofNat_fin]; simp
theorem two_def : (2 : XR) = fin 2 := by rw [ofNat_fin]; simp

theorem le_trans' {a b c : XR} (h : a ≤ b) (g : b ≤ c) : a ≤ c := by
  cases a <;> cases b <;> cases c <;> first | exact trivial | exact absurd h id | exact absurd g id | exact le_trans (α := ℝ) h g
theorem le_self {a b : XR} (h : a ≤ b) : a ≤ a := by
  cases a <;> cases b <;> first | exact trivial | exact absurd h id | exact le_refl (α := ℝ) _
theorem le_self' {a b : XR} (h : a ≤ b) : b ≤ b := by
  cases a <;> cases b <;> first | exact trivial | exact absurd h id | exact le_refl (α := ℝ) _
theorem le_pinf {a b : XR} (h : a ≤ b) : b ≤ pinf := by
  cases a <;> cases b <;> first | exact trivial | exact absurd h id
theorem le_pinf' {a b : XR} (h : a ≤ b) : a ≤ pinf := by
  cases a <;> cases b <;> first | exact trivial | exact absurd h id
theorem ninf_le {a b : XR} (h : a ≤ b) : ninf ≤ a := by
  cases a <;> cases b <;> first | exact trivial | exact absurd h id
theorem neg_pinf' : -pinf = ninf := rfl
theorem neg_ninf' : -ninf = pinf := rfl

theorem neg_le {a b : XR} (h : a ≤ b) : -b ≤ -a := by
  cases a <;> cases b <;> first | exact trivial | exact absurd h id | exact neg_le_neg (α := ℝ) h

theorem add_le_left (e : ℝ) {a b : XR} (h : a ≤ b) : fin e + a ≤ fin e + b := by
  cases a <;> cases b <;> first | exact trivial | exact absurd h id | exact (fin_le _ _).2 (by linarith [(fin_le _ _).1 h])
theorem add_le_right (e : ℝ) {a b : XR} (h : a ≤ b) : a + fin e ≤ b + fin e := by
  cases a <;> cases b <;> first | exact trivial | exact absurd h id | exact (fin_le _ _).2 (by linarith [(fin_le _ _).1 h])

theorem infSign_pos {x : ℝ} (h : 0 < x) : infSign x = pinf := if_pos h
theorem infSign_neg {x : ℝ} (h : x < 0) : infSign x = ninf := by rw [infSign, if_neg (not_lt.2 h.le), if_pos h]

theorem mul_le_left {m : ℝ} (hm : 0 < m) {a b : XR} (h : a ≤ b) : fin m * a ≤ fin m * b := by
  have h1 : fin m * pinf = pinf := infSign_pos hm
  have h2 : fin m * ninf = ninf := infSign_neg (by linarith)
  cases a <;> cases b <;> (try simp only [h1, h2]) <;>
    first | exact trivial | exact absurd h id | exact (fin_le _ _).2 (mul_le_mul_of_nonneg_left ((fin_le _ _).1 h) hm.le)
theorem mul_le_right {m : ℝ} (hm : 0 < m) {a b : XR} (h : a ≤ b) : a * fin m ≤ b * fin m := by
  have h1 : pinf * fin m = pinf := infSign_pos hm
  have h2 : ninf * fin m = ninf := infSign_neg (by linarith)
  cases a <;> cases b <;> (try simp only [h1, h2]) <;>
    first | exact trivial | exact absurd h id | exact (fin_le _ _).2 (mul_le_mul_of_nonneg_right ((fin_le _ _).1 h) hm.le)
theorem mul_le_neg {m : ℝ} (hm : 0 < m) {a b : XR} (h : a ≤ b) : fin (-m) * b ≤ fin (-m) * a := by
  have h1 : fin (-m) * pinf = ninf := infSign_neg (by linarith)
  have h2 : fin (-m) * ninf = pinf := infSign_pos (by linarith)
  cases a <;> cases b <;> (try simp only [h1, h2]) <;>
    first | exact trivial | exact absurd h id | exact (fin_le _ _).2 (by nlinarith [(fin_le _ _).1 h])
theorem div_le_right {m : ℝ} (hm : 0 < m) {a b : XR} (h : a ≤ b) : a / fin m ≤ b / fin m := by
  have h1 : pinf / fin m = pinf := if_neg (not_lt.2 hm.le)
  have h2 : ninf / fin m = ninf := if_neg (not_lt.2 hm.le)
  cases a <;> cases b <;> (try simp only [h1, h2, fin_div hm.ne']) <;>
    first | exact trivial | exact absurd h id | exact (fin_le _ _).2 (div_le_div_of_nonneg_right ((fin_le _ _).1 h) hm.le)

end XR

namespace Machine
variable {M : Machine}

@[simp] theorem round_fin (x : ℝ) : M.round (fin x) = M.rnd x := rfl

theorem round_mono (S : Rounding M.rnd) {a b : XR} (h : a ≤ b) : M.round a ≤ M.round b := by
  have hr : ∀ x, M.rnd x ≤ M.rnd x := fun x => S.mono x x (le_refl _)
  cases a <;> cases b <;>
    first
    | exact trivial
    | exact absurd h id
    | exact S.mono _ _ h
    | exact ninf_le (hr _)
    | exact le_pinf (hr _)

theorem add_left (S : Rounding M.rnd) (e : ℝ) {a b : XR} (h : a ≤ b) : M.add (fin e) a ≤ M.add (fin e) b := round_mono S (add_le_left e h)
theorem add_right (S : Rounding M.rnd) (e : ℝ) {a b : XR} (h : a ≤ b) : M.add a (fin e) ≤ M.add b (fin e) := round_mono S (add_le_right e h)
theorem sub_left (S : Rounding M.rnd) (e : ℝ) {a b : XR} (h : a ≤ b) : M.sub (fin e) b ≤ M.sub (fin e) a :=
  round_mono S (add_le_left e (neg_le h))
theorem sub_right (S : Rounding M.rnd) (e : ℝ) {a b : XR} (h : a ≤ b) : M.sub a (fin e) ≤ M.sub b (fin e) :=
  round_mono S (add_le_right (-e) h)
theorem mul_left (S : Rounding M.rnd) {m : ℝ} (hm : 0 < m) {a b : XR} (h : a ≤ b) : M.mul (fin m) a ≤ M.mul (fin m) b :=
  round_mono S (mul_le_left hm h)
theorem mul_right (S : Rounding M.rnd) {m : ℝ} (hm : 0 < m) {a b : XR} (h : a ≤ b) : M.mul a (fin m) ≤ M.mul b (fin m) :=
  round_mono S (mul_le_right hm h)
theorem mul_neg (S : Rounding M.rnd) {m : ℝ} (hm : 0 < m) {a b : XR} (h : a ≤ b) : M.mul (-fin m) b ≤ M.mul (-fin m) a :=
  round_mono S (mul_le_neg hm h)
theorem div_right (S : Rounding M.rnd) {m : ℝ} (hm : 0 < m) {a b : XR} (h : a ≤ b) : M.div a (fin m) ≤ M.div b (fin m) :=
  round_mono S (div_le_right hm h)

theorem add_fin (x y : ℝ) : M.add (fin x) (fin y) = M.rnd (x + y) := rfl
theorem sub_fin (x y : ℝ) : M.sub (fin x) (fin y) = M.rnd (x - y) := by rw [sub, fin_sub, round_fin]
theorem mul_fin (x y : ℝ) : M.mul (fin x) (fin y) = M.rnd (x * y) := rfl
theorem div_fin (x : ℝ) {y : ℝ} (h : y ≠ 0) : M.div (fin x) (fin y) = M.rnd (x / y) := by rw [div, fin_div h, round_fin]

/-- A quotient of numbers of known signs. -/
theorem recip_nonneg (S : Rounding M.rnd) {x y : ℝ} (hx : 0 ≤ x) (hy : 0 < y) : fin 0 ≤ M.div (fin x) (fin y) := by
  rw [div_fin _ hy.ne', ← S.zero]; exact S.mono _ _ (by positivity)
theorem recip_nonpos (S : Rounding M.rnd) {x y : ℝ} (hx : x ≤ 0) (hy : 0 < y) : M.div (fin x) (fin y) ≤ fin 0 := by
  rw [div_fin _ hy.ne', ← S.zero]; exact S.mono _ _ (div_nonpos_of_nonpos_of_nonneg hx hy.le)

/-- `1 - x` for `x` in [0, 1]. -/
theorem one_sub (S : Rounding M.rnd) {x : ℝ} (h0 : 0 ≤ x) (h1 : x ≤ 1) : fin 0 ≤ M.sub 1 (fin x) ∧ M.sub 1 (fin x) ≤ fin 1 := by
  rw [one_def, sub_fin, ← S.zero, ← S.one]
  exact ⟨S.mono _ _ (by linarith), S.mono _ _ (by linarith)⟩
theorem one_sub_anti (S : Rounding M.rnd) {x y : ℝ} (h : x ≤ y) : M.sub 1 (fin y) ≤ M.sub 1 (fin x) := by
  rw [one_def, sub_fin, sub_fin]; exact S.mono _ _ (by linarith)

theorem ln_nonpos (L : Library M) {x : XR} (h0 : fin 0 ≤ x) (h1 : x ≤ fin 1) : M.ln x ≤ fin 0 := by
  rw [← L.ln_one]; exact L.ln_mono _ _ h0 h1

end Machine

namespace Rounded
open Machine
variable {M : Machine}

/-! ### Samples and icdf -/

/-- What is to be shown of a function `f` on (0,1): a lower and an upper bound and monotony. -/
theorem icdf_of {D : ContDist} {f : XR → XR} (e : ∀ x : ℝ, 0 < x → x < 1 → D.icdf (fin x) = f (fin x))
    (h1 : ∀ x : ℝ, 0 < x → x < 1 → M.Rep x → D.min ≤ f (fin x) ∧ f (fin x) ≤ D.max)
    (h2 : ∀ x y : ℝ, 0 < x → x ≤ y → y < 1 → M.Rep x → M.Rep y → f (fin x) ≤ f (fin y)) : IcdfInRange M D :=
  ⟨fun x a b r => by rw [e x a b]; exact h1 x a b r,
   fun x y a b c r s => by rw [e x a (b.trans_lt c), e y (a.trans_le b) c]; exact h2 x y a b c r s⟩

theorem neg_mul_ln (S : Sound M) {mu : ℝ} (hm : 0 < mu) {x y : XR} (h0 : fin 0 ≤ x) (h1 : x ≤ y) :
    M.mul (-fin mu) (M.ln y) ≤ M.mul (-fin mu) (M.ln x) := mul_neg S.rounding hm (S.library.ln_mono _ _ h0 h1)
theorem neg_mul_ln_nonneg (S : Sound M) {mu : ℝ} (hm : 0 < mu) {x : XR} (h0 : fin 0 ≤ x) (h1 : x ≤ fin 1) :
    fin 0 ≤ M.mul (-fin mu) (M.ln x) := by
  have := neg_mul_ln S hm h0 h1
  rwa [S.library.ln_one, neg_fin, mul_fin, mul_zero, S.rounding.zero] at this

theorem pos_mul_ln (S : Sound M) {mu : ℝ} (hm : 0 < mu) {x y : XR} (h0 : fin 0 ≤ x) (h1 : x ≤ y) :
    M.mul (fin mu) (M.ln x) ≤ M.mul (fin mu) (M.ln y) := mul_left S.rounding hm (S.library.ln_mono _ _ h0 h1)
theorem pos_mul_ln_nonpos (S : Sound M) {mu : ℝ} (hm : 0 < mu) {x : XR} (h0 : fin 0 ≤ x) (h1 : x ≤ fin 1) :
    M.mul (fin mu) (M.ln x) ≤ fin 0 := by
  have := pos_mul_ln S hm h0 h1
  rwa [S.library.ln_one, mul_fin, mul_zero, S.rounding.zero] at this

theorem exponential_samples (S : Sound M) {mu : ℝ} (hm : 0 < mu) :
    SamplesInRange M (exponential M (fin mu)) ∧ SamplesDecrease M (exponential M (fin mu)) ∧ IcdfInRange M (exponential M (fin mu)) := by
  refine ⟨fun u hu _ => ?_, fun u hu v _ _ _ h => neg_mul_ln S hm ((fin_le _ _).2 hu.1.le) ((fin_le _ _).2 h), ?_⟩
  · have := neg_mul_ln_nonneg S hm ((fin_le _ _).2 hu.1.le) ((fin_le _ _).2 hu.2)
    rw [show (exponential M (fin mu)).min = fin 0 from zero_def]
    exact ⟨this, le_pinf this⟩
  · refine icdf_of (f := fun x => M.mul (-fin mu) (M.ln (M.sub 1 x))) (fun x h0 h1 => ?_) (fun x h0 h1 _ => ?_) (fun x y h0 h h1 _ _ => ?_)
    · simp only [exponential]
      rw [if_neg, if_neg]
      · rw [one_def]; exact ne_of_lt h1
      · rw [zero_def, one_def, fin_lt, fin_lt]; push Not; exact ⟨h0.le, h1.le⟩
    · obtain ⟨a, b⟩ := one_sub S.rounding h0.le h1.le
      have := neg_mul_ln_nonneg S hm a b
      rw [show (exponential M (fin mu)).min = fin 0 from zero_def]
      exact ⟨this, le_pinf this⟩
    · exact neg_mul_ln S hm (one_sub S.rounding (h0.le.trans h) h1.le).1 (one_sub_anti S.rounding h)

theorem half_def (S : Rounding M.rnd) : M.div 1 2 = fin (1 / 2) := by rw [one_def, two_def, div_fin _ two_ne_zero, S.half]

/-- `2x` and `2 - 2x`. -/
theorem two_mul_lo (S : Rounding M.rnd) {x : ℝ} (h0 : 0 ≤ x) (h1 : x ≤ 1 / 2) :
    fin 0 ≤ M.mul 2 (fin x) ∧ M.mul 2 (fin x) ≤ fin 1 := by
  rw [two_def, mul_fin, ← S.zero, ← S.one]
  exact ⟨S.mono _ _ (by linarith), S.mono _ _ (by linarith)⟩
theorem two_mul_mono (S : Rounding M.rnd) {x y : ℝ} (h : x ≤ y) : M.mul 2 (fin x) ≤ M.mul 2 (fin y) := by
  rw [two_def, mul_fin, mul_fin]; exact S.mono _ _ (by linarith)
theorem two_sub_hi (S : Rounding M.rnd) {x : ℝ} (h0 : 1 / 2 ≤ x) (h1 : x ≤ 1) :
    fin 0 ≤ M.sub 2 (M.mul 2 (fin x)) ∧ M.sub 2 (M.mul 2 (fin x)) ≤ fin 1 := by
  have a : fin 1 ≤ M.mul 2 (fin x) := by rw [two_def, mul_fin, ← S.one]; exact S.mono _ _ (by linarith)
  have b : M.mul 2 (fin x) ≤ fin 2 := by rw [two_def, mul_fin, ← S.two]; exact S.mono _ _ (by linarith)
  have c := sub_left S 2 a
  have d := sub_left S 2 b
  rw [sub_fin] at c d
  rw [show (2 : ℝ) - 1 = 1 by norm_num, S.one] at c
  rw [sub_self, S.zero] at d
  rw [two_def] at c d ⊢
  exact ⟨d, c⟩
theorem two_sub_anti (S : Rounding M.rnd) {x y : ℝ} (h : x ≤ y) : M.sub 2 (M.mul 2 (fin y)) ≤ M.sub 2 (M.mul 2 (fin x)) := by
  have := two_mul_mono (M := M) S h
  rw [show (2 : XR) = fin 2 from two_def] at this ⊢
  exact sub_left S 2 this

theorem twosided_samples (S : Sound M) {mu : ℝ} (hm : 0 < mu) :
    SamplesInRange M (twosidedExponential M (fin mu)) ∧ SamplesIncrease M (twosidedExponential M (fin mu)) ∧
      IcdfInRange M (twosidedExponential M (fin mu)) := by
  have e : ∀ x : ℝ, 0 < x → x < 1 → twosidedIcdf M (fin mu) (fin x) =
      if x < 1 / 2 then M.mul (fin mu) (M.ln (M.mul 2 (fin x))) else M.mul (-fin mu) (M.ln (M.sub 2 (M.mul 2 (fin x)))) := by
    intro x h0 h1
    simp only [twosidedIcdf]
    rw [if_neg, if_neg, if_neg]
    · simp only [fin_lt]
    · rw [zero_def]; exact ne_of_gt h0
    · rw [one_def]; exact ne_of_lt h1
    · rw [zero_def, one_def, fin_lt, fin_lt]; push Not; exact ⟨h0.le, h1.le⟩
  have lo : ∀ x : ℝ, 0 < x → x < 1 / 2 → twosidedIcdf M (fin mu) (fin x) ≤ fin 0 := by
    intro x h0 h1
    rw [e x h0 (by linarith), if_pos h1]
    obtain ⟨a, b⟩ := two_mul_lo S.rounding h0.le h1.le
    exact pos_mul_ln_nonpos S hm a b
  have hi : ∀ x : ℝ, 1 / 2 ≤ x → x < 1 → fin 0 ≤ twosidedIcdf M (fin mu) (fin x) := by
    intro x h0 h1
    rw [e x (by linarith) h1, if_neg (not_lt.2 h0)]
    obtain ⟨a, b⟩ := two_sub_hi S.rounding h0 h1.le
    exact neg_mul_ln_nonneg S hm a b
  have r : ∀ x : ℝ, 0 < x → x < 1 → ninf ≤ twosidedIcdf M (fin mu) (fin x) ∧ twosidedIcdf M (fin mu) (fin x) ≤ pinf := by
    intro x h0 h1
    by_cases h : x < 1 / 2
    · exact ⟨ninf_le (lo x h0 h), le_pinf' (lo x h0 h)⟩
    · exact ⟨ninf_le (le_self' (hi x (not_lt.1 h) h1)), le_pinf (hi x (not_lt.1 h) h1)⟩
  have mo : ∀ x y : ℝ, 0 < x → x ≤ y → y < 1 → twosidedIcdf M (fin mu) (fin x) ≤ twosidedIcdf M (fin mu) (fin y) := by
    intro x y h0 h h1
    by_cases hx : x < 1 / 2
    · by_cases hy : y < 1 / 2
      · rw [e x h0 (by linarith), e y (by linarith) h1, if_pos hx, if_pos hy]
        exact pos_mul_ln S hm (two_mul_lo S.rounding h0.le hx.le).1 (two_mul_mono S.rounding h)
      · exact le_trans' (lo x h0 hx) (hi y (not_lt.1 hy) h1)
    · have hy : ¬ y < 1 / 2 := by linarith
      rw [e x h0 (by linarith), e y (by linarith) h1, if_neg hx, if_neg hy]
      exact neg_mul_ln S hm (two_sub_hi S.rounding (not_lt.1 hy) h1.le).1 (two_sub_anti S.rounding h)
  exact ⟨fun u hu _ => r u hu.1 hu.2, fun u hu v hv _ _ h => mo u v hu.1 h hv.2,
    ⟨fun x h0 h1 _ => r x h0 h1, fun x y h0 h h1 _ _ => mo x y h0 h h1⟩⟩

theorem tent_samples (S : Sound M) {m d : ℝ} (hd : 0 < d) (rd : M.Rep d) :
    SamplesInRange M (tent M (fin m) (fin d)) ∧ SamplesIncrease M (tent M (fin m) (fin d)) ∧ IcdfInRange M (tent M (fin m) (fin d)) := by
  have L := S.library
  have R := S.rounding
  have n1 : M.rnd (-1) = fin (-1) := R.neg 1 R.one
  set g : ℝ → XR := fun x => if x < 1 / 2 then M.add (fin (-1)) (M.sqrt (M.mul 2 (fin x))) else M.sub 1 (M.sqrt (M.sub 2 (M.mul 2 (fin x)))) with hg
  have e : ∀ x : ℝ, tentIcdf M (fin m) (fin d) (fin x) = M.add (M.mul (g x) (fin d)) (fin m) := by
    intro x
    simp only [tentIcdf, hg, half_def R, fin_lt]
    split_ifs <;> rfl
  have sq : ∀ y, fin 0 ≤ y → y ≤ fin 1 → fin 0 ≤ M.sqrt y ∧ M.sqrt y ≤ fin 1 := fun y h0 h1 =>
    ⟨by rw [← L.sqrt_zero]; exact L.sqrt_mono _ _ (le_self h0) h0, by rw [← L.sqrt_one]; exact L.sqrt_mono _ _ h0 h1⟩
  have lo : ∀ x : ℝ, 0 ≤ x → x < 1 / 2 → fin (-1) ≤ g x ∧ g x ≤ fin 0 := by
    intro x h0 h1
    obtain ⟨a, b⟩ := two_mul_lo R h0 h1.le
    obtain ⟨c, f⟩ := sq _ a b
    have c := add_left R (-1) c
    have f := add_left R (-1) f
    rw [add_fin, add_zero, n1] at c
    rw [add_fin, show (-1 : ℝ) + 1 = 0 by norm_num, R.zero] at f
    simp only [hg, if_pos h1]
    exact ⟨c, f⟩
  have hi : ∀ x : ℝ, 1 / 2 ≤ x → x ≤ 1 → fin 0 ≤ g x ∧ g x ≤ fin 1 := by
    intro x h0 h1
    obtain ⟨a, b⟩ := two_sub_hi R h0 h1
    obtain ⟨c, f⟩ := sq _ a b
    have c := sub_left R 1 c
    have f := sub_left R 1 f
    rw [sub_fin, sub_zero, R.one] at c
    rw [sub_fin, sub_self, R.zero] at f
    simp only [hg, if_neg (not_lt.2 h0), one_def]
    exact ⟨f, c⟩
  have gm : ∀ x y : ℝ, 0 ≤ x → x ≤ y → y ≤ 1 → g x ≤ g y := by
    intro x y h0 h h1
    by_cases hx : x < 1 / 2
    · by_cases hy : y < 1 / 2
      · simp only [hg, if_pos hx, if_pos hy]
        exact add_left R (-1) (L.sqrt_mono _ _ (two_mul_lo R h0 hx.le).1 (two_mul_mono R h))
      · exact le_trans' (lo x h0 hx).2 (hi y (not_lt.1 hy) h1).1
    · have hy : ¬ y < 1 / 2 := by linarith
      simp only [hg, if_neg hx, if_neg hy, one_def]
      exact sub_left R 1 (L.sqrt_mono _ _ (two_sub_hi R (not_lt.1 hy) h1).1 (two_sub_anti R h))
  have gr : ∀ x : ℝ, 0 ≤ x → x ≤ 1 → fin (-1) ≤ g x ∧ g x ≤ fin 1 := by
    intro x h0 h1
    by_cases h : x < 1 / 2
    · exact ⟨(lo x h0 h).1, le_trans' (lo x h0 h).2 ((fin_le _ _).2 zero_le_one)⟩
    · exact ⟨le_trans' ((fin_le _ _).2 (by norm_num)) (hi x (not_lt.1 h) h1).1, (hi x (not_lt.1 h) h1).2⟩
  have mo : ∀ x y : ℝ, 0 ≤ x → x ≤ y → y ≤ 1 → tentIcdf M (fin m) (fin d) (fin x) ≤ tentIcdf M (fin m) (fin d) (fin y) := by
    intro x y h0 h h1
    rw [e, e]
    exact add_right R m (mul_right R hd (gm x y h0 h h1))
  have r : ∀ x : ℝ, 0 ≤ x → x ≤ 1 → M.sub (fin m) (fin d) ≤ tentIcdf M (fin m) (fin d) (fin x) ∧
      tentIcdf M (fin m) (fin d) (fin x) ≤ M.add (fin m) (fin d) := by
    intro x h0 h1
    obtain ⟨a, b⟩ := gr x h0 h1
    have a := add_right R m (mul_right R hd a)
    have b := add_right R m (mul_right R hd b)
    rw [mul_fin, show -1 * d = -d by ring, R.neg d rd, add_fin] at a
    rw [mul_fin, one_mul, show M.rnd d = fin d from rd, add_fin] at b
    rw [e, sub_fin, add_fin, show m - d = -d + m by ring, add_comm m d]
    exact ⟨a, b⟩
  refine ⟨fun u hu _ => r u hu.1 hu.2, fun u hu v hv _ _ h => mo u v hu.1 h hv.2, icdf_of (f := tentIcdf M (fin m) (fin d)) (fun x h0 h1 => ?_)
    (fun x h0 h1 _ => r x h0.le h1.le) (fun x y h0 h h1 _ _ => mo x y h0.le h h1.le)⟩
  simp only [tent]
  rw [if_neg]
  rw [zero_def, one_def, fin_lt, fin_lt]; push Not; exact ⟨h0.le, h1.le⟩

theorem pow_ge_one (L : Library M) {x e : XR} (he : e ≤ fin 0) (h0 : fin 0 ≤ x) (h1 : x ≤ fin 1) : fin 1 ≤ M.pow x e := by
  rw [← L.pow_one e (Or.inr he)]; exact L.pow_anti _ _ _ he h0 h1

theorem pareto_samples (S : Sound M) {gamma theta : ℝ} (hg : 0 < gamma) (ht : 0 < theta) :
    SamplesInRange M (pareto M (fin gamma) (fin theta)) ∧ SamplesDecrease M (pareto M (fin gamma) (fin theta)) ∧
      IcdfInRange M (pareto M (fin gamma) (fin theta)) := by
  have L := S.library
  have R := S.rounding
  have he : M.div (fin (-1)) (fin gamma) ≤ fin 0 := recip_nonpos R (by norm_num) hg
  set f : XR → XR := fun x => M.mul (M.sub (M.pow x (M.div (fin (-1)) (fin gamma))) 1) (fin theta) with hf
  have r : ∀ x, fin 0 ≤ x → x ≤ fin 1 → fin 0 ≤ f x := by
    intro x h0 h1
    have a := mul_right R ht (sub_right R 1 (pow_ge_one L he h0 h1))
    rw [sub_fin, sub_self, R.zero, mul_fin, zero_mul, R.zero] at a
    simp only [hf, one_def]
    exact a
  have mo : ∀ x y, fin 0 ≤ x → x ≤ y → f y ≤ f x := by
    intro x y h0 h
    simp only [hf, one_def]
    exact mul_right R ht (sub_right R 1 (L.pow_anti _ _ _ he h0 h))
  have z : (pareto M (fin gamma) (fin theta)).min = fin 0 := zero_def
  refine ⟨fun u hu _ => ?_, fun u hu v hv _ _ h => mo _ _ ((fin_le _ _).2 hu.1.le) ((fin_le _ _).2 h), icdf_of (f := fun x => f (M.sub 1 x))
    (fun x h0 h1 => ?_) (fun x h0 h1 _ => ?_) (fun x y h0 h h1 _ _ => ?_)⟩
  · have a := r (fin u) ((fin_le _ _).2 hu.1.le) ((fin_le _ _).2 hu.2.le)
    rw [z]; exact ⟨a, le_pinf a⟩
  · simp only [pareto]
    rw [if_neg, if_neg, if_neg]
    · rw [one_def]; exact ne_of_lt h1
    · rw [zero_def]; exact ne_of_gt h0
    · rw [zero_def, one_def, fin_le, fin_le]; push Not; exact ⟨h0, h1⟩
  · obtain ⟨a, b⟩ := one_sub R h0.le h1.le
    have a := r _ a b
    rw [z]; exact ⟨a, le_pinf a⟩
  · exact mo _ _ (one_sub R (h0.le.trans h) h1.le).1 (one_sub_anti R h)

theorem powerlaw_samples (S : Sound M) {gamma theta : ℝ} (hg : 0 < gamma) (ht : 0 < theta) (rt : M.Rep theta) :
    SamplesInRange M (powerlaw M (fin gamma) (fin theta)) ∧ SamplesDecrease M (powerlaw M (fin gamma) (fin theta)) ∧
      IcdfInRange M (powerlaw M (fin gamma) (fin theta)) := by
  have L := S.library
  have R := S.rounding
  have he : M.div (fin (-1)) (fin gamma) ≤ fin 0 := recip_nonpos R (by norm_num) hg
  set f : XR → XR := fun x => M.mul (fin theta) (M.pow x (M.div (fin (-1)) (fin gamma))) with hf
  have r : ∀ x, fin 0 ≤ x → x ≤ fin 1 → fin theta ≤ f x := by
    intro x h0 h1
    have a := mul_left R ht (pow_ge_one L he h0 h1)
    rwa [mul_fin, mul_one, show M.rnd theta = fin theta from rt] at a
  have mo : ∀ x y, fin 0 ≤ x → x ≤ y → f y ≤ f x := fun x y h0 h => mul_left R ht (L.pow_anti _ _ _ he h0 h)
  refine ⟨fun u hu _ => ?_, fun u hu v hv _ _ h => mo _ _ ((fin_le _ _).2 hu.1.le) ((fin_le _ _).2 h), icdf_of (f := fun x => f (M.sub 1 x))
    (fun x h0 h1 => ?_) (fun x h0 h1 _ => ?_) (fun x y h0 h h1 _ _ => ?_)⟩
  · have a := r (fin u) ((fin_le _ _).2 hu.1.le) ((fin_le _ _).2 hu.2)
    exact ⟨a, le_pinf a⟩
  · simp only [powerlaw]
    rw [if_neg, if_neg, if_neg]
    · rw [one_def]; exact ne_of_lt h1
    · rw [zero_def]; exact ne_of_gt h0
    · rw [zero_def, one_def, fin_le, fin_le]; push Not; exact ⟨h0, h1⟩
  · obtain ⟨a, b⟩ := one_sub R h0.le h1.le
    have a := r _ a b
    exact ⟨a, le_pinf a⟩
  · exact mo _ _ (one_sub R (h0.le.trans h) h1.le).1 (one_sub_anti R h)

theorem neg_nonneg {a : XR} (h : a ≤ fin 0) : fin 0 ≤ -a := by
  have := neg_le h; rwa [neg_fin, neg_zero] at this

theorem weibull_samples (S : Sound M) {theta beta : ℝ} (ht : 0 < theta) (hb : 0 < beta) :
    SamplesInRange M (weibull M (fin theta) (fin beta)) ∧ SamplesDecrease M (weibull M (fin theta) (fin beta)) ∧
      IcdfInRange M (weibull M (fin theta) (fin beta)) := by
  have L := S.library
  have R := S.rounding
  have he : fin 0 ≤ M.div 1 (fin beta) := by rw [one_def]; exact recip_nonneg R zero_le_one hb
  set f : XR → XR := fun x => M.mul (fin theta) (M.pow x (M.div 1 (fin beta))) with hf
  have r : ∀ x, fin 0 ≤ x → fin 0 ≤ f x := by
    intro x h0
    have a := mul_left R ht (L.pow_nonneg x _ (Or.inl he) h0)
    rwa [mul_fin, mul_zero, R.zero] at a
  have mo : ∀ x y, fin 0 ≤ x → x ≤ y → f x ≤ f y := fun x y h0 h => mul_left R ht (L.pow_mono _ _ _ he h0 h)
  have z : (weibull M (fin theta) (fin beta)).min = fin 0 := zero_def
  have p : ∀ x : ℝ, 0 ≤ x → x < 1 → fin 0 ≤ -M.ln1p (-fin x) := by
    intro x h0 h1
    refine neg_nonneg ?_
    rw [← L.ln1p_zero, neg_fin]
    exact L.ln1p_mono _ _ ((fin_le _ _).2 (by linarith)) ((fin_le _ _).2 (by linarith))
  refine ⟨fun u hu _ => ?_, fun u hu v hv _ _ h => ?_, icdf_of (f := fun x => f (-M.ln1p (-x)))
    (fun x h0 h1 => ?_) (fun x h0 h1 _ => ?_) (fun x y h0 h h1 _ _ => ?_)⟩
  · have a := r _ (neg_nonneg (ln_nonpos L ((fin_le _ _).2 hu.1.le) ((fin_le _ _).2 hu.2)))
    rw [z]; exact ⟨a, le_pinf a⟩
  · exact mo _ _ (neg_nonneg (ln_nonpos L ((fin_le _ _).2 hv.1.le) ((fin_le _ _).2 hv.2)))
      (neg_le (L.ln_mono _ _ ((fin_le _ _).2 hu.1.le) ((fin_le _ _).2 h)))
  · simp only [weibull]
    rw [if_neg]
    rw [zero_def, one_def, fin_lt, fin_le]; push Not; exact ⟨h0.le, h1⟩
  · have a := r _ (p x h0.le h1)
    rw [z]; exact ⟨a, le_pinf a⟩
  · refine mo _ _ (p x h0.le (by linarith)) (neg_le (L.ln1p_mono _ _ ?_ ?_))
    · rw [neg_fin]; exact (fin_le _ _).2 (by linarith)
    · rw [neg_fin, neg_fin]; exact (fin_le _ _).2 (by linarith)

/-- A number between finite numbers is finite. -/
theorem between {a : XR} {x y : ℝ} (h0 : fin x ≤ a) (h1 : a ≤ fin y) : ∃ r : ℝ, a = fin r ∧ x ≤ r ∧ r ≤ y := by
  cases a <;> first | exact absurd h0 id | exact absurd h1 id | exact ⟨_, rfl, h0, h1⟩

theorem logistic_samples (S : Sound M) {theta eta : ℝ} (ht : 0 < theta) :
    SamplesInRange M (logistic M (fin theta) (fin eta)) ∧ SamplesIncrease M (logistic M (fin theta) (fin eta)) ∧
      IcdfInRange M (logistic M (fin theta) (fin eta)) := by
  have L := S.library
  have R := S.rounding
  have q0 : ∀ x : ℝ, 0 < x → x < 1 → fin 0 ≤ M.div (M.sub 1 (fin x)) (fin x) := by
    intro x h0 h1
    obtain ⟨a, b⟩ := one_sub R h0.le h1.le
    obtain ⟨r, e, h2, h3⟩ := between a b
    rw [e]; exact recip_nonneg R h2 h0
  have qm : ∀ x y : ℝ, 0 < x → x ≤ y → y < 1 → M.div (M.sub 1 (fin y)) (fin y) ≤ M.div (M.sub 1 (fin x)) (fin x) := by
    intro x y h0 h h1
    have hy := h0.trans_le h
    obtain ⟨r, e, h2, h3⟩ := between (one_sub R h0.le (h.trans h1.le)).1 (one_sub R h0.le (h.trans h1.le)).2
    obtain ⟨r', e', h2', h3'⟩ := between (one_sub R hy.le h1.le).1 (one_sub R hy.le h1.le).2
    have hr : r' ≤ r := by
      have := one_sub_anti (M := M) R h
      rw [e, e'] at this; exact this
    rw [e, e', div_fin _ hy.ne', div_fin _ h0.ne']
    exact R.mono _ _ (div_le_div₀ h2 hr h0 h)
  have mo : ∀ x y : ℝ, 0 < x → x ≤ y → y < 1 → logisticIcdf M (fin theta) (fin eta) (fin x) ≤ logisticIcdf M (fin theta) (fin eta) (fin y) := by
    intro x y h0 h h1
    exact sub_left R eta (mul_right R ht (L.ln_mono _ _ (q0 y (h0.trans_le h) h1) (qm x y h0 h h1)))
  have r : ∀ x : ℝ, 0 < x → x < 1 → ninf ≤ logisticIcdf M (fin theta) (fin eta) (fin x) ∧ logisticIcdf M (fin theta) (fin eta) (fin x) ≤ pinf :=
    fun x h0 h1 => ⟨ninf_le (mo x x h0 (le_refl _) h1), le_pinf (mo x x h0 (le_refl _) h1)⟩
  refine ⟨fun u hu _ => r u hu.1 hu.2, fun u hu v hv _ _ h => mo u v hu.1 h hv.2, icdf_of (f := logisticIcdf M (fin theta) (fin eta))
    (fun x h0 h1 => ?_) (fun x h0 h1 _ => r x h0 h1) (fun x y h0 h h1 _ _ => mo x y h0 h h1)⟩
  simp only [logistic]
  rw [if_neg, if_neg, if_neg]
  · rw [one_def]; exact ne_of_lt h1
  · rw [zero_def]; exact ne_of_gt h0
  · rw [zero_def, one_def, fin_lt, fin_lt]; push Not; exact ⟨h0.le, h1.le⟩

theorem extreme_samples (S : Sound M) {theta eta : ℝ} (ht : 0 < theta) :
    SamplesInRange M (extremeValue M (fin theta) (fin eta)) ∧ SamplesDecrease M (extremeValue M (fin theta) (fin eta)) ∧
      IcdfInRange M (extremeValue M (fin theta) (fin eta)) := by
  have L := S.library
  have R := S.rounding
  set f : XR → XR := fun x => M.add (fin eta) (M.mul (fin theta) (M.ln (-M.ln x))) with hf
  have mo : ∀ x y, fin 0 ≤ x → x ≤ y → y ≤ fin 1 → f y ≤ f x := by
    intro x y h0 h h1
    exact add_left R eta (mul_left R ht (L.ln_mono _ _ (neg_nonneg (ln_nonpos L (le_trans' h0 h) h1)) (neg_le (L.ln_mono _ _ h0 h))))
  have r : ∀ x, fin 0 ≤ x → x ≤ fin 1 → ninf ≤ f x ∧ f x ≤ pinf :=
    fun x h0 h1 => ⟨ninf_le (mo x x h0 (le_self' h0) h1), le_pinf (mo x x h0 (le_self' h0) h1)⟩
  refine ⟨fun u hu _ => r _ ((fin_le _ _).2 hu.1.le) ((fin_le _ _).2 hu.2.le),
    fun u hu v hv _ _ h => mo _ _ ((fin_le _ _).2 hu.1.le) ((fin_le _ _).2 h) ((fin_le _ _).2 hv.2.le), icdf_of (f := fun x => f (M.sub 1 x))
    (fun x h0 h1 => ?_) (fun x h0 h1 _ => r _ (one_sub R h0.le h1.le).1 (one_sub R h0.le h1.le).2)
    (fun x y h0 h h1 _ _ => mo _ _ (one_sub R (h0.le.trans h) h1.le).1 (one_sub_anti R h) (one_sub R h0.le (h.trans h1.le)).2)⟩
  simp only [extremeValue]
  rw [if_neg, if_neg, if_neg]
  · rw [one_def]; exact ne_of_lt h1
  · rw [zero_def]; exact ne_of_gt h0
  · rw [zero_def, one_def, fin_le, fin_le]; push Not; exact ⟨h0, h1⟩

theorem rayleigh_samples (S : Sound M) {nu : ℝ} (hn : 0 < nu) :
    SamplesInRange M (rayleigh M (fin nu)) ∧ SamplesIncrease M (rayleigh M (fin nu)) ∧ IcdfInRange M (rayleigh M (fin nu)) := by
  have L := S.library
  have R := S.rounding
  have e : ∀ x : ℝ, 0 ≤ x → x ≤ 1 → rayleighIcdf M (fin nu) (fin x) = M.mul (fin nu) (M.sqrt (M.mul (-fin 2) (M.ln (M.sub 1 (fin x))))) := by
    intro x h0 h1
    simp only [rayleighIcdf]
    rw [if_neg]
    · rfl
    · rw [zero_def, one_def, fin_lt, fin_lt]; push Not; exact ⟨h0, h1⟩
  have q0 : ∀ x : ℝ, 0 ≤ x → x ≤ 1 → fin 0 ≤ M.mul (-fin 2) (M.ln (M.sub 1 (fin x))) := fun x h0 h1 =>
    neg_mul_ln_nonneg S two_pos (one_sub R h0 h1).1 (one_sub R h0 h1).2
  have mo : ∀ x y : ℝ, 0 ≤ x → x ≤ y → y ≤ 1 → rayleighIcdf M (fin nu) (fin x) ≤ rayleighIcdf M (fin nu) (fin y) := by
    intro x y h0 h h1
    rw [e x h0 (h.trans h1), e y (h0.trans h) h1]
    exact mul_left R hn (L.sqrt_mono _ _ (q0 x h0 (h.trans h1)) (neg_mul_ln S two_pos (one_sub R (h0.trans h) h1).1 (one_sub_anti R h)))
  have r : ∀ x : ℝ, 0 ≤ x → x ≤ 1 → (rayleigh M (fin nu)).min ≤ rayleighIcdf M (fin nu) (fin x) ∧ rayleighIcdf M (fin nu) (fin x) ≤ pinf := by
    intro x h0 h1
    have a : fin 0 ≤ M.sqrt (M.mul (-fin 2) (M.ln (M.sub 1 (fin x)))) := by
      rw [← L.sqrt_zero]; exact L.sqrt_mono _ _ (le_refl (0 : ℝ)) (q0 x h0 h1)
    have a := mul_left R hn a
    rw [mul_fin, mul_zero, R.zero, ← e x h0 h1] at a
    rw [show (rayleigh M (fin nu)).min = fin 0 from zero_def]
    exact ⟨a, le_pinf a⟩
  exact ⟨fun u hu _ => r u hu.1.le hu.2.le, fun u hu v hv _ _ h => mo u v hu.1.le h hv.2.le,
    fun x h0 h1 _ => r x h0.le h1.le, fun x y h0 h h1 _ _ => mo x y h0.le h h1.le⟩

theorem cauchy_icdf (S : Sound M) {pi theta eta : ℝ} (hp : 0 < pi) (rp : M.Rep pi) (ht : 0 < theta) (rt : M.Rep theta) {x : ℝ}
    (h0 : 0 ≤ x) (h1 : x ≤ 1) : ninf ≤ cauchyIcdf M pi (fin theta) (fin eta) (fin x) ∧ cauchyIcdf M pi (fin theta) (fin eta) (fin x) ≤ pinf := by
  have L := S.library
  have R := S.rounding
  obtain ⟨t, e, -, -⟩ : ∃ t : ℝ, M.mul (fin x) (fin pi) = fin t ∧ 0 ≤ t ∧ t ≤ pi := by
    refine between ?_ ?_
    · rw [mul_fin, ← R.zero]; exact R.mono _ _ (by positivity)
    · rw [mul_fin, ← show M.rnd pi = fin pi from rp]; exact R.mono _ _ (by nlinarith)
  obtain ⟨s, c, hs, hc, h2, h3⟩ := L.trig t
  obtain ⟨c1, c2⟩ := abs_le.1 h2
  obtain ⟨w, e', -, -⟩ : ∃ w : ℝ, M.mul (fin theta) (fin c) = fin w ∧ -theta ≤ w ∧ w ≤ theta := by
    refine between ?_ ?_
    · rw [mul_fin, ← R.neg theta rt]; exact R.mono _ _ (by nlinarith)
    · rw [mul_fin, ← show M.rnd theta = fin theta from rt]; exact R.mono _ _ (by nlinarith)
  have hv : ∃ a b, a ≤ b ∧ M.div (fin w) (fin s) = b := by
    by_cases hs0 : s = 0
    · have hw : w ≠ 0 := by
        rintro rfl
        rcases (abs_eq zero_le_one).1 (h3 hs0) with h | h
        · rw [mul_fin, h, mul_one, show M.rnd theta = fin theta from rt] at e'
          have : theta = 0 := by injection e'
          exact ht.ne' this
        · rw [mul_fin, h, show theta * -1 = -theta by ring, R.neg theta rt] at e'
          have : -theta = 0 := by injection e'
          linarith
      refine ⟨ninf, _, ?_, rfl⟩
      rw [Machine.div, fin_div', if_pos hs0]
      rcases lt_or_gt_of_ne hw with h | h
      · rw [infSign_neg h]; trivial
      · rw [infSign_pos h]; trivial
    · rw [div_fin _ hs0]
      exact ⟨_, _, R.mono _ _ (le_refl _), rfl⟩
  obtain ⟨a, b, hab, hb⟩ := hv
  have hf := sub_left R eta (le_self' hab)
  have : cauchyIcdf M pi (fin theta) (fin eta) (fin x) = M.sub (fin eta) b := by
    simp only [cauchyIcdf]; rw [e, hs, hc, e', hb]
  rw [this]
  exact ⟨ninf_le hf, le_pinf hf⟩

end Rounded
end Trng
