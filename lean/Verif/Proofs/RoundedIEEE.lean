import Verif.Proofs.Rounded
import Verif.Proofs.Normal

/-! The IEEE 754 formats round as required, and a correctly rounded library is a usable one. -/
namespace Trng
open XR Spec Machine
open Classical

theorem nearestEven_ge (x : ℝ) : ⌊x⌋ ≤ nearestEven x := by
  unfold nearestEven; split_ifs <;> omega
theorem nearestEven_le (x : ℝ) : nearestEven x ≤ ⌊x⌋ + 1 := by
  unfold nearestEven; split_ifs <;> omega
theorem nearestEven_close (x : ℝ) : |(nearestEven x : ℝ) - x| ≤ 1 / 2 := by
  have h1 := Int.floor_le x
  have h2 := Int.lt_floor_add_one x
  unfold nearestEven
  split_ifs <;> rw [abs_le] <;> push_cast <;> constructor <;> linarith
theorem nearestEven_mono {x y : ℝ} (h : x ≤ y) : nearestEven x ≤ nearestEven y := by
  rcases (Int.floor_le_floor h).eq_or_lt with e | e
  · unfold nearestEven
    rw [← e]
    split_ifs <;> first | omega | (exfalso; linarith)
  · have := nearestEven_le x
    have := nearestEven_ge y
    omega
theorem nearestEven_int (n : ℤ) : nearestEven n = n := by
  unfold nearestEven; rw [Int.floor_intCast, sub_self, if_pos (by norm_num)]
theorem nearestEven_nonneg {x : ℝ} (h : 0 ≤ x) : 0 ≤ nearestEven x := by
  have := nearestEven_mono h
  rwa [show nearestEven (0 : ℝ) = 0 by exact_mod_cast nearestEven_int 0] at this

variable {p : ℕ} {lo hi : ℤ}

theorem two_zpow_pos (e : ℤ) : (0 : ℝ) < 2 ^ e := zpow_pos two_pos e

theorem nearestPos_nonneg {x : ℝ} (h : 0 ≤ x) : 0 ≤ nearestPos p lo x :=
  mul_nonneg (by exact_mod_cast nearestEven_nonneg (div_nonneg h (two_zpow_pos _).le)) (two_zpow_pos _).le

theorem two_zpow_nat {e k : ℤ} (h : e ≤ k) : (2 : ℝ) ^ k / 2 ^ e = ((2 ^ (k - e).toNat : ℤ) : ℝ) := by
  rw [← zpow_sub₀ two_ne_zero]
  push_cast
  rw [← zpow_natCast, Int.toNat_of_nonneg (by omega)]

/-- Rounding does not pass a power of two. -/
theorem nearest_le_two {e k : ℤ} (h : e ≤ k) {x : ℝ} (hx : x ≤ 2 ^ k) : (nearestEven (x / 2 ^ e) : ℝ) * 2 ^ e ≤ 2 ^ k := by
  have h1 : nearestEven (x / 2 ^ e) ≤ 2 ^ (k - e).toNat := by
    have := nearestEven_mono (div_le_div_of_nonneg_right hx (two_zpow_pos e).le)
    rwa [two_zpow_nat h, nearestEven_int] at this
  have h2 : (nearestEven (x / 2 ^ e) : ℝ) ≤ 2 ^ k / 2 ^ e := by rw [two_zpow_nat h]; exact_mod_cast h1
  rwa [le_div_iff₀ (two_zpow_pos e)] at h2
theorem two_le_nearest {e k : ℤ} (h : e ≤ k) {x : ℝ} (hx : 2 ^ k ≤ x) : 2 ^ k ≤ (nearestEven (x / 2 ^ e) : ℝ) * 2 ^ e := by
  have h1 : 2 ^ (k - e).toNat ≤ nearestEven (x / 2 ^ e) := by
    have := nearestEven_mono (div_le_div_of_nonneg_right hx (two_zpow_pos e).le)
    rwa [two_zpow_nat h, nearestEven_int] at this
  have h2 : (2 : ℝ) ^ k / 2 ^ e ≤ nearestEven (x / 2 ^ e) := by rw [two_zpow_nat h]; exact_mod_cast h1
  rwa [div_le_iff₀ (two_zpow_pos e)] at h2

theorem log_le {x : ℝ} (h : 0 < x) : (2 : ℝ) ^ Int.log 2 x ≤ x := by exact_mod_cast Int.zpow_log_le_self (b := 2) (by norm_num) h
theorem lt_log {x : ℝ} : x < (2 : ℝ) ^ (Int.log 2 x + 1) := by exact_mod_cast Int.lt_zpow_succ_log_self (b := 2) (by norm_num) x

theorem nearestPos_mono (hp : 1 ≤ p) {x y : ℝ} (h0 : 0 ≤ x) (h : x ≤ y) : nearestPos p lo x ≤ nearestPos p lo y := by
  rcases h0.eq_or_lt with rfl | h0
  · have : nearestPos p lo 0 = 0 := by
      unfold nearestPos
      rw [zero_div, show nearestEven (0 : ℝ) = 0 by exact_mod_cast nearestEven_int 0]; simp
    rw [this]; exact nearestPos_nonneg h
  · have hl : Int.log 2 x ≤ Int.log 2 y := Int.log_mono_right h0 h
    have hE : ulpExp p lo x ≤ ulpExp p lo y := by unfold ulpExp; omega
    rcases hE.eq_or_lt with e | e
    · unfold nearestPos
      rw [e]
      refine mul_le_mul_of_nonneg_right ?_ (two_zpow_pos _).le
      exact_mod_cast nearestEven_mono (div_le_div_of_nonneg_right h (two_zpow_pos _).le)
    · have e1 : ulpExp p lo x = max (Int.log 2 x + 1 - p) lo := rfl
      have e2 : ulpExp p lo y = max (Int.log 2 y + 1 - p) lo := rfl
      have a : nearestPos p lo x ≤ 2 ^ Int.log 2 y := by
        refine nearest_le_two (by omega) (lt_log.le.trans ?_)
        exact zpow_le_zpow_right₀ one_le_two (by omega)
      have b : (2 : ℝ) ^ Int.log 2 y ≤ nearestPos p lo y := two_le_nearest (by omega) (log_le (h0.trans_le h))
      exact a.trans b

theorem nearestPos_two_zpow (hp : 1 ≤ p) {j : ℤ} (h : lo ≤ j) : nearestPos p lo (2 ^ j) = 2 ^ j := by
  have e : Int.log 2 ((2 : ℝ) ^ j) = j := by
    have := Int.log_zpow (R := ℝ) (b := 2) (by norm_num) j
    push_cast at this; exact this
  have e1 : ulpExp p lo (2 ^ j) = max (j + 1 - p) lo := by unfold ulpExp; rw [e]
  exact le_antisymm (nearest_le_two (by omega) (le_refl _)) (two_le_nearest (by omega) (le_refl _))

theorem ieee_nonneg {x : ℝ} (h : 0 ≤ x) : ieee p lo hi x = if 2 ^ hi ≤ nearestPos p lo x then pinf else fin (nearestPos p lo x) := if_pos h
theorem ieee_neg {x : ℝ} (h : x < 0) : ieee p lo hi x = if 2 ^ hi ≤ nearestPos p lo (-x) then ninf else fin (-nearestPos p lo (-x)) :=
  if_neg (not_le.2 h)

theorem ieee_mono (hp : 1 ≤ p) {x y : ℝ} (h : x ≤ y) : ieee p lo hi x ≤ ieee p lo hi y := by
  by_cases hx : 0 ≤ x
  · have := nearestPos_mono (lo := lo) hp hx h
    rw [ieee_nonneg hx, ieee_nonneg (hx.trans h)]
    split_ifs <;> first | trivial | exact this | (exfalso; linarith)
  · push Not at hx
    have nx := nearestPos_nonneg (p := p) (lo := lo) (neg_nonneg.2 hx.le)
    by_cases hy : 0 ≤ y
    · have ny := nearestPos_nonneg (p := p) (lo := lo) hy
      rw [ieee_neg hx, ieee_nonneg hy]
      split_ifs <;> first | trivial | exact (fin_le _ _).2 (by linarith)
    · push Not at hy
      have := nearestPos_mono (lo := lo) hp (neg_nonneg.2 hy.le) (neg_le_neg h)
      rw [ieee_neg hx, ieee_neg hy]
      split_ifs <;> first | trivial | exact (fin_le _ _).2 (by linarith) | (exfalso; linarith)

theorem ieee_two_zpow (hp : 1 ≤ p) {j : ℤ} (h : lo ≤ j) (h' : j < hi) : ieee p lo hi (2 ^ j) = fin (2 ^ j) := by
  rw [ieee_nonneg (two_zpow_pos j).le, nearestPos_two_zpow hp h, if_neg]
  rw [not_le]
  exact zpow_lt_zpow_right₀ one_lt_two h'

theorem ieee_zero : ieee p lo hi 0 = fin 0 := by
  have : nearestPos p lo 0 = 0 := by
    unfold nearestPos
    rw [zero_div, show nearestEven (0 : ℝ) = 0 by exact_mod_cast nearestEven_int 0]; simp
  rw [ieee_nonneg (le_refl _), this, if_neg (not_le.2 (two_zpow_pos hi))]

theorem ieee_rounding (hp : 1 ≤ p) (hlo : lo < 0) (hhi : 1 < hi) : Rounding (ieee p lo hi) where
  mono x y h := ieee_mono hp h
  zero := ieee_zero
  half := by have := ieee_two_zpow (p := p) (lo := lo) (hi := hi) (j := -1) hp (by omega) (by omega); norm_num at this ⊢; exact this
  one := by have := ieee_two_zpow (p := p) (lo := lo) (hi := hi) (j := 0) hp (by omega) (by omega); norm_num at this ⊢; exact this
  two := by have := ieee_two_zpow (p := p) (lo := lo) (hi := hi) (j := 1) hp (by omega) (by omega); norm_num at this ⊢; exact this
  neg x h := by
    rcases lt_trichotomy x 0 with hx | rfl | hx
    · rw [ieee_neg hx] at h
      split_ifs at h with c
      have e : nearestPos p lo (-x) = -x := by linarith [(fin_inj _ _).1 h]
      rw [ieee_nonneg (by linarith), if_neg c, e]
    · simpa using h
    · rw [ieee_nonneg hx.le] at h
      split_ifs at h with c
      have e := (fin_inj _ _).1 h
      rw [ieee_neg (by linarith), neg_neg, if_neg c, e]

/-- A number that is rounded to 0 is tiny. -/
theorem nearestPos_eq_zero (hp : 1 ≤ p) {x : ℝ} (h0 : 0 ≤ x) (h : nearestPos p lo x = 0) : x ≤ 2 ^ (lo - 1) := by
  rcases h0.eq_or_lt with rfl | h0
  · exact (two_zpow_pos _).le
  have hn : (nearestEven (x / 2 ^ ulpExp p lo x) : ℝ) = 0 := by
    rcases mul_eq_zero.1 h with h | h
    · exact h
    · exact absurd h (two_zpow_pos _).ne'
  have hc := nearestEven_close (x / 2 ^ ulpExp p lo x)
  rw [hn, zero_sub, abs_neg, abs_of_nonneg (div_nonneg h0.le (two_zpow_pos _).le), div_le_iff₀ (two_zpow_pos _)] at hc
  have h2 : x ≤ 2 ^ (ulpExp p lo x - 1) := by rw [zpow_sub_one₀ two_ne_zero]; linarith
  have h3 : Int.log 2 x ≤ ulpExp p lo x - 1 := by
    by_contra hcon
    push Not at hcon
    have : (2 : ℝ) ^ (ulpExp p lo x - 1) < 2 ^ Int.log 2 x := zpow_lt_zpow_right₀ one_lt_two hcon
    linarith [log_le h0]
  have e1 : ulpExp p lo x = max (Int.log 2 x + 1 - p) lo := rfl
  have e2 : ulpExp p lo x = lo := by omega
  rwa [e2] at h2

/-- A number that is very close to 1 is rounded to 1. -/
theorem nearestPos_near_one (hp : 1 ≤ p) (hlo : lo < 0) {x d : ℝ} (h0 : 1 - d ≤ x) (h1 : x ≤ 1) (hd : d < 2 ^ (-(p : ℤ) - 1)) (hd' : d < 2 ^ (lo - 1) ∨ lo ≤ -p) :
    nearestPos p lo x = 1 := by
  have hh : (2 : ℝ) ^ (-(p : ℤ) - 1) ≤ 1 / 4 := by
    calc (2 : ℝ) ^ (-(p : ℤ) - 1) ≤ 2 ^ (-2 : ℤ) := zpow_le_zpow_right₀ one_le_two (by omega)
      _ = 1 / 4 := by norm_num
  have one : nearestPos p lo 1 = 1 := by simpa using nearestPos_two_zpow (p := p) (lo := lo) (j := 0) hp (by omega)
  rcases h1.eq_or_lt with rfl | h1
  · exact one
  have hx : 1 / 2 ≤ x := by linarith
  have hl : Int.log 2 x = -1 := by
    refine le_antisymm ?_ ?_
    · by_contra hcon
      push Not at hcon
      have : (2 : ℝ) ^ (0 : ℤ) ≤ 2 ^ Int.log 2 x := zpow_le_zpow_right₀ one_le_two (by omega)
      have h9 := log_le (x := x) (by linarith)
      rw [zpow_zero] at this; linarith
    · have := Int.log_mono_right (b := 2) (r₁ := (1 / 2 : ℝ)) (r₂ := x) (by norm_num) hx
      have e : Int.log 2 (1 / 2 : ℝ) = -1 := by
        have := Int.log_zpow (R := ℝ) (b := 2) (by norm_num) (-1)
        norm_num at this ⊢; exact this
      omega
  have hE : ulpExp p lo x = max (-(p : ℤ)) lo := by unfold ulpExp; rw [hl]; omega
  set E := ulpExp p lo x with hEd
  have hd2 : d < 2 ^ (E - 1) := by
    rcases hd' with h | h
    · exact h.trans_le (zpow_le_zpow_right₀ one_le_two (by omega))
    · exact hd.trans_le (zpow_le_zpow_right₀ one_le_two (by omega))
  have up : nearestPos p lo x ≤ 1 := by
    have := nearest_le_two (e := E) (k := 0) (by omega) (x := x) (by simpa using h1.le)
    rw [zpow_zero] at this; exact this
  refine le_antisymm up ?_
  have hn : (2 : ℝ) ^ (0 : ℤ) / 2 ^ E = ((2 ^ (0 - E).toNat : ℤ) : ℝ) := two_zpow_nat (by omega)
  have hz : ((2 ^ (0 - E).toNat : ℤ) : ℝ) - 1 / 2 < x / 2 ^ E := by
    rw [← hn, zpow_zero, lt_div_iff₀ (two_zpow_pos E), sub_mul, div_mul_cancel₀ _ (two_zpow_pos E).ne']
    rw [zpow_sub_one₀ two_ne_zero] at hd2
    linarith
  have hc := (abs_le.1 (nearestEven_close (x / 2 ^ E))).1
  have : ((2 ^ (0 - E).toNat : ℤ) : ℝ) - 1 < nearestEven (x / 2 ^ E) := by linarith
  have h5 : (2 ^ (0 - E).toNat : ℤ) - 1 < nearestEven (x / 2 ^ E) := by exact_mod_cast this
  have h6 : (2 ^ (0 - E).toNat : ℤ) ≤ nearestEven (x / 2 ^ E) := by omega
  have h7 : (2 : ℝ) ^ (0 : ℤ) / 2 ^ E ≤ nearestEven (x / 2 ^ E) := by rw [hn]; exact_mod_cast h6
  rw [div_le_iff₀ (two_zpow_pos E), zpow_zero] at h7
  exact h7

/-! ### The exact functions -/

namespace XR

theorem exp_le {x y : XR} (h : x ≤ y) : XR.exp x ≤ XR.exp y := by
  cases x <;> cases y <;> first
    | exact absurd h id
    | exact trivial
    | exact (fin_le _ _).2 (Real.exp_le_exp.2 h)
    | exact (fin_le _ _).2 (Real.exp_pos _).le
    | exact (fin_le _ _).2 (le_refl _)

theorem expm1_le {x y : XR} (h : x ≤ y) : XR.expm1 x ≤ XR.expm1 y := by
  cases x <;> cases y <;> first
    | exact absurd h id
    | exact trivial
    | exact (fin_le _ _).2 (sub_le_sub_right (Real.exp_le_exp.2 h) 1)
    | exact (fin_le _ _).2 (by linarith [Real.exp_pos ‹ℝ›])
    | exact (fin_le _ _).2 (le_refl _)

theorem ln_le {x y : XR} (h0 : fin 0 ≤ x) (h : x ≤ y) : XR.ln x ≤ XR.ln y := by
  cases x with
  | nan => exact absurd h0 id
  | ninf => exact absurd h0 id
  | pinf =>
    cases y <;> first | exact absurd h id | exact trivial
  | fin x =>
    have h0 : 0 ≤ x := h0
    cases y with
    | nan => exact absurd h id
    | ninf => exact absurd h id
    | pinf =>
      simp only [XR.ln]
      split_ifs <;> first | trivial | (exfalso; rcases h0.eq_or_lt with h | h <;> simp_all)
    | fin y =>
      have h : x ≤ y := h
      simp only [XR.ln]
      rcases h0.eq_or_lt with e | e
      · subst e
        rw [if_neg (lt_irrefl _), if_pos rfl]
        rcases h.eq_or_lt with e | e
        · subst e; rw [if_neg (lt_irrefl _), if_pos rfl]; trivial
        · rw [if_pos e]; trivial
      · rw [if_pos e, if_pos (e.trans_le h)]
        exact (fin_le _ _).2 (Real.log_le_log e h)

theorem ln1p_le {x y : XR} (h0 : fin (-1) ≤ x) (h : x ≤ y) : XR.ln1p x ≤ XR.ln1p y := by
  unfold XR.ln1p
  rw [one_def]
  refine ln_le ?_ (add_le_left 1 h)
  have := add_le_left 1 h0
  rwa [fin_add, show (1 : ℝ) + -1 = 0 by norm_num] at this

theorem sqrt_le {x y : XR} (h0 : fin 0 ≤ x) (h : x ≤ y) : XR.sqrt x ≤ XR.sqrt y := by
  cases x with
  | nan => exact absurd h0 id
  | ninf => exact absurd h0 id
  | pinf => cases y <;> first | exact absurd h id | exact trivial
  | fin x =>
    have h0 : 0 ≤ x := h0
    rw [sqrt_fin h0]
    cases y with
    | nan => exact absurd h id
    | ninf => exact absurd h id
    | pinf => trivial
    | fin y =>
      have h : x ≤ y := h
      rw [sqrt_fin (h0.trans h)]
      exact (fin_le _ _).2 (Real.sqrt_le_sqrt h)

theorem atan_le {x y : XR} (h : x ≤ y) : XR.atan x ≤ XR.atan y := by
  cases x <;> cases y <;> first
    | exact absurd h id
    | exact (fin_le _ _).2 (Real.arctan_strictMono.monotone h)
    | exact (fin_le _ _).2 (le_refl _)
    | exact (fin_le _ _).2 (Real.neg_pi_div_two_lt_arctan _).le
    | exact (fin_le _ _).2 (Real.arctan_lt_pi_div_two _).le
    | exact (fin_le _ _).2 (by linarith [Real.pi_pos])

theorem erf_le {x y : XR} (h : x ≤ y) : XR.erf x ≤ XR.erf y := by
  cases x <;> cases y <;> first
    | exact absurd h id
    | exact (fin_le _ _).2 (strictMono_erfR.monotone h)
    | exact (fin_le _ _).2 (le_refl _)
    | exact (fin_le _ _).2 (neg_one_lt_erfR _).le
    | exact (fin_le _ _).2 (erfR_lt_one _).le
    | exact (fin_le _ _).2 (by norm_num)

theorem erfc_le {x y : XR} (h : x ≤ y) : XR.erfc y ≤ XR.erfc x := by
  cases x <;> cases y <;> first
    | exact absurd h id
    | exact (fin_le _ _).2 (sub_le_sub_left (strictMono_erfR.monotone h) 1)
    | exact (fin_le _ _).2 (le_refl _)
    | exact (fin_le _ _).2 (by linarith [neg_one_lt_erfR ‹ℝ›])
    | exact (fin_le _ _).2 (by linarith [erfR_lt_one ‹ℝ›])
    | exact (fin_le _ _).2 (by norm_num)

theorem pow_pinf_fin (y : ℝ) : XR.pow pinf (fin y) = if y = 0 then fin 1 else if 0 < y then pinf else fin 0 := rfl
theorem pow_fin_zero (x : ℝ) : XR.pow (fin x) (fin 0) = fin 1 := if_pos rfl
theorem pow_zero_fin {y : ℝ} (h : y ≠ 0) : XR.pow (fin 0) (fin y) = if 0 < y then fin 0 else pinf := by
  simp [XR.pow, h]
theorem pow_fin_pinf {x : ℝ} (h : 0 ≤ x) : XR.pow (fin x) pinf = if x < 1 then fin 0 else if x = 1 then fin 1 else pinf := by
  simp only [XR.pow]; rw [abs_of_nonneg h]
theorem pow_fin_ninf {x : ℝ} (h : 0 ≤ x) : XR.pow (fin x) ninf = if x < 1 then pinf else if x = 1 then fin 1 else fin 0 := by
  simp only [XR.pow]; rw [abs_of_nonneg h]

theorem pow_le {x y e : XR} (he : fin 0 ≤ e) (h0 : fin 0 ≤ x) (h : x ≤ y) : XR.pow x e ≤ XR.pow y e := by
  have hy := le_trans' h0 h
  cases e with
  | nan => exact absurd he id
  | ninf => exact absurd he id
  | pinf =>
    cases x with
    | nan => exact absurd h0 id
    | ninf => exact absurd h0 id
    | pinf => cases y <;> first | exact absurd h id | exact trivial
    | fin x =>
      have h0 : 0 ≤ x := h0
      rw [pow_fin_pinf h0]
      cases y with
      | nan => exact absurd h id
      | ninf => exact absurd h id
      | pinf => split_ifs <;> trivial
      | fin y =>
        have h : x ≤ y := h
        rw [pow_fin_pinf (h0.trans h)]
        by_cases a : x < 1
        · rw [if_pos a]; split_ifs <;> first | trivial | exact (fin_le _ _).2 (by norm_num)
        · rw [if_neg a, if_neg (show ¬ y < 1 by linarith)]
          by_cases b : x = 1
          · rw [if_pos b]; split_ifs <;> first | trivial | exact (fin_le _ _).2 (by norm_num)
          · have : x ≠ 1 := b
            have : 1 < x := lt_of_le_of_ne (not_lt.1 a) this.symm
            rw [if_neg b, if_neg (show ¬ y = 1 by intro e; linarith)]; trivial
  | fin e =>
    have he : 0 ≤ e := he
    cases x with
    | nan => exact absurd h0 id
    | ninf => exact absurd h0 id
    | pinf =>
      cases y with
      | nan => exact absurd h id
      | ninf => exact absurd h id
      | fin y => exact absurd h id
      | pinf => rw [pow_pinf_fin]; split_ifs <;> first | trivial | exact (fin_le _ _).2 (le_refl _)
    | fin x =>
      have h0 : 0 ≤ x := h0
      have hf : XR.pow (fin x) (fin e) = fin (x ^ e) := by
        rcases h0.eq_or_lt with rfl | h0
        · rcases he.eq_or_lt with rfl | he
          · rw [pow_fin_zero, Real.rpow_zero]
          · rw [pow_zero_fin he.ne', if_pos he, Real.zero_rpow he.ne']
        · exact pow_fin h0
      rw [hf]
      cases y with
      | nan => exact absurd h id
      | ninf => exact absurd h id
      | pinf =>
        rw [pow_pinf_fin]
        rcases he.eq_or_lt with rfl | he
        · rw [if_pos rfl, Real.rpow_zero]; exact (fin_le _ _).2 (le_refl _)
        · rw [if_neg he.ne', if_pos he]; trivial
      | fin y =>
        have h : x ≤ y := h
        have hg : XR.pow (fin y) (fin e) = fin (y ^ e) := by
          rcases (h0.trans h).eq_or_lt with rfl | h0
          · rcases he.eq_or_lt with rfl | he
            · rw [pow_fin_zero, Real.rpow_zero]
            · rw [pow_zero_fin he.ne', if_pos he, Real.zero_rpow he.ne']
          · exact pow_fin h0
        rw [hg]
        exact (fin_le _ _).2 (Real.rpow_le_rpow h0 h he)

theorem pow_ge {x y e : XR} (he : e ≤ fin 0) (h0 : fin 0 ≤ x) (h : x ≤ y) : XR.pow y e ≤ XR.pow x e := by
  have hy := le_trans' h0 h
  cases e with
  | nan => exact absurd he id
  | pinf => exact absurd he id
  | ninf =>
    cases x with
    | nan => exact absurd h0 id
    | ninf => exact absurd h0 id
    | pinf => cases y <;> first | exact absurd h id | exact (fin_le _ _).2 (le_refl _)
    | fin x =>
      have h0 : 0 ≤ x := h0
      rw [pow_fin_ninf h0]
      cases y with
      | nan => exact absurd h id
      | ninf => exact absurd h id
      | pinf => show fin 0 ≤ _; split_ifs <;> first | trivial | exact (fin_le _ _).2 (by norm_num)
      | fin y =>
        have h : x ≤ y := h
        rw [pow_fin_ninf (h0.trans h)]
        by_cases a : x < 1
        · rw [if_pos a]; split_ifs <;> trivial
        · rw [if_neg a, if_neg (show ¬ y < 1 by linarith)]
          by_cases b : x = 1
          · rw [if_pos b]; split_ifs <;> exact (fin_le _ _).2 (by norm_num)
          · have : x ≠ 1 := b
            have : 1 < x := lt_of_le_of_ne (not_lt.1 a) this.symm
            rw [if_neg b, if_neg (show ¬ y = 1 by intro e; linarith)]; exact (fin_le _ _).2 (le_refl _)
  | fin e =>
    have he : e ≤ 0 := he
    rcases he.eq_or_lt with rfl | he
    · have : ∀ z : XR, fin 0 ≤ z → XR.pow z (fin 0) = fin 1 := by
        intro z hz
        cases z with
        | nan => exact absurd hz id
        | ninf => exact absurd hz id
        | pinf => rw [pow_pinf_fin, if_pos rfl]
        | fin z => exact pow_fin_zero z
      rw [this x h0, this y hy]; exact (fin_le _ _).2 (le_refl _)
    · cases x with
      | nan => exact absurd h0 id
      | ninf => exact absurd h0 id
      | pinf =>
        cases y with
        | nan => exact absurd h id
        | ninf => exact absurd h id
        | fin y => exact absurd h id
        | pinf => rw [pow_pinf_fin, if_neg he.ne, if_neg (not_lt.2 he.le)]; exact (fin_le _ _).2 (le_refl _)
      | fin x =>
        have h0 : 0 ≤ x := h0
        have hn : ∀ z : XR, fin 0 ≤ z → XR.pow z (fin e) ≤ pinf ∧ fin 0 ≤ XR.pow z (fin e) := by
          intro z hz
          cases z with
          | nan => exact absurd hz id
          | ninf => exact absurd hz id
          | pinf => rw [pow_pinf_fin, if_neg he.ne, if_neg (not_lt.2 he.le)]; exact ⟨trivial, (fin_le _ _).2 (le_refl _)⟩
          | fin z =>
            have hz : 0 ≤ z := hz
            rcases hz.eq_or_lt with rfl | hz
            · rw [pow_zero_fin he.ne, if_neg (not_lt.2 he.le)]; exact ⟨trivial, trivial⟩
            · rw [pow_fin hz]; exact ⟨trivial, (fin_le _ _).2 (by positivity)⟩
        rcases h0.eq_or_lt with rfl | h0
        · rw [pow_zero_fin he.ne, if_neg (not_lt.2 he.le)]
          exact (hn y hy).1
        · rw [pow_fin h0]
          cases y with
          | nan => exact absurd h id
          | ninf => exact absurd h id
          | pinf => rw [pow_pinf_fin, if_neg he.ne, if_neg (not_lt.2 he.le)]; exact (fin_le _ _).2 (by positivity)
          | fin y =>
            have h : x ≤ y := h
            rw [pow_fin (h0.trans_le h)]
            exact (fin_le _ _).2 (Real.rpow_le_rpow_of_nonpos h0 h he.le)

theorem pow_one' {e : XR} (he : fin 0 ≤ e ∨ e ≤ fin 0) : XR.pow (fin 1) e = fin 1 := by
  cases e with
  | nan => rcases he with h | h <;> exact absurd h id
  | ninf => rw [pow_fin_ninf zero_le_one, if_neg (lt_irrefl _), if_pos rfl]
  | pinf => rw [pow_fin_pinf zero_le_one, if_neg (lt_irrefl _), if_pos rfl]
  | fin e => rw [pow_fin one_pos, Real.one_rpow]

theorem pow_nonneg' {x e : XR} (he : fin 0 ≤ e ∨ e ≤ fin 0) (h : fin 0 ≤ x) : fin 0 ≤ XR.pow x e := by
  cases x with
  | nan => exact absurd h id
  | ninf => exact absurd h id
  | pinf =>
    cases e with
    | nan => rcases he with h | h <;> exact absurd h id
    | ninf => exact (fin_le _ _).2 (le_refl _)
    | pinf => trivial
    | fin e => rw [pow_pinf_fin]; split_ifs <;> first | trivial | exact (fin_le _ _).2 (by norm_num)
  | fin x =>
    have h : 0 ≤ x := h
    cases e with
    | nan => rcases he with h | h <;> exact absurd h id
    | ninf => rw [pow_fin_ninf h]; split_ifs <;> first | trivial | exact (fin_le _ _).2 (by norm_num)
    | pinf => rw [pow_fin_pinf h]; split_ifs <;> first | trivial | exact (fin_le _ _).2 (by norm_num)
    | fin e =>
      rcases h.eq_or_lt with rfl | h
      · by_cases h0 : e = 0
        · subst h0; rw [pow_fin_zero]; exact (fin_le _ _).2 (by norm_num)
        · rw [pow_zero_fin h0]; split_ifs <;> first | trivial | exact (fin_le _ _).2 (by norm_num)
      · rw [pow_fin h]; exact (fin_le _ _).2 (by positivity)

end XR

theorem rounded_round (r : ℝ → XR) (x : XR) : (Machine.rounded r).round x = match x with | fin x => r x | y => y := by
  cases x <;> rfl

theorem rounded_library {r : ℝ → XR} (R : Rounding r)
    (ht : ∀ x : ℝ, ∃ s c : ℝ, r (Real.sin x) = fin s ∧ r (Real.cos x) = fin c ∧ |c| ≤ 1 ∧ (s = 0 → |c| = 1)) : Library (Machine.rounded r) := by
  have rm : ∀ {a b : XR}, a ≤ b → (Machine.rounded r).round a ≤ (Machine.rounded r).round b := fun h => round_mono (M := Machine.rounded r) R h
  simp only [rounded_round] at rm
  have n1 : r (-1) = fin (-1) := R.neg 1 R.one
  constructor
  · exact fun x y h => rm (exp_le h)
  · show r (Real.exp 0) = _; rw [Real.exp_zero, R.one]
  · exact R.zero
  · exact fun x y h => rm (expm1_le h)
  · show r (Real.exp 0 - 1) = _; rw [Real.exp_zero, sub_self, R.zero]
  · exact n1
  · exact fun x y h0 h => rm (ln_le h0 h)
  · simp only [Machine.rounded, ln_fin one_pos, Real.log_one, R.zero]
  · exact fun x y h0 h => rm (ln1p_le h0 h)
  · have : XR.ln1p (fin 0) = fin 0 := by rw [ln1p_fin (by norm_num)]; simp
    simp only [Machine.rounded, this, R.zero]
  · exact fun x y h0 h => rm (sqrt_le h0 h)
  · simp only [Machine.rounded, sqrt_fin (le_refl (0 : ℝ)), Real.sqrt_zero, R.zero]
  · simp only [Machine.rounded, sqrt_fin zero_le_one, Real.sqrt_one, R.one]
  · exact fun x y e he h0 h => rm (pow_le he h0 h)
  · exact fun x y e he h0 h => rm (pow_ge he h0 h)
  · intro e he; simp only [Machine.rounded, pow_one' he, R.one]
  · intro x e he h0
    have := rm (pow_nonneg' he h0)
    simp only [R.zero] at this
    exact this
  · exact ht
  · exact fun x y h => rm (atan_le h)
  · exact fun x y h => rm (erf_le h)
  · exact ⟨n1, R.one⟩
  · exact fun x y h => rm (erfc_le h)
  · exact ⟨R.two, R.zero⟩

theorem ieee_between (hp : 1 ≤ p) (hlo : lo < 0) (hhi : 1 < hi) {x : ℝ} (h : |x| ≤ 1) : ∃ y : ℝ, ieee p lo hi x = fin y ∧ |y| ≤ 1 := by
  have R := ieee_rounding hp hlo hhi
  obtain ⟨h1, h2⟩ := abs_le.1 h
  have a := R.mono _ _ h1
  have b := R.mono _ _ h2
  rw [R.neg 1 R.one] at a
  rw [R.one] at b
  obtain ⟨y, e, c, d⟩ := Rounded.between a b
  exact ⟨y, e, abs_le.2 ⟨c, d⟩⟩

theorem ieee_abs {x y : ℝ} (h : ieee p lo hi x = fin y) : |y| = nearestPos p lo |x| := by
  by_cases hx : 0 ≤ x
  · rw [ieee_nonneg hx] at h
    split_ifs at h
    rw [← (fin_inj _ _).1 h, abs_of_nonneg hx, abs_of_nonneg (nearestPos_nonneg hx)]
  · push Not at hx
    rw [ieee_neg hx] at h
    split_ifs at h
    rw [← (fin_inj _ _).1 h, abs_of_neg hx, abs_neg, abs_of_nonneg (nearestPos_nonneg (by linarith))]

theorem ieee_sound (hp : 1 ≤ p) (hlo : lo ≤ -p) (hhi : 1 < hi) : Sound (Machine.rounded (ieee p lo hi)) := by
  have R := ieee_rounding (p := p) (lo := lo) (hi := hi) hp (by omega) hhi
  refine ⟨R, rounded_library R fun x => ?_⟩
  obtain ⟨s, hs, -⟩ := ieee_between (p := p) (lo := lo) (hi := hi) hp (by omega) hhi (Real.abs_sin_le_one x)
  obtain ⟨c, hc, hc1⟩ := ieee_between (p := p) (lo := lo) (hi := hi) hp (by omega) hhi (Real.abs_cos_le_one x)
  refine ⟨s, c, hs, hc, hc1, fun h0 => ?_⟩
  have h1 := ieee_abs hs
  rw [h0, abs_zero] at h1
  have h2 := nearestPos_eq_zero hp (abs_nonneg _) h1.symm
  rw [ieee_abs hc]
  have h3 : (2 : ℝ) ^ (lo - 1) ≤ 2 ^ (-(p : ℤ) - 1) := zpow_le_zpow_right₀ one_le_two (by omega)
  have h4 : (2 : ℝ) ^ (-(p : ℤ) - 1) ≤ 1 / 4 := by
    calc (2 : ℝ) ^ (-(p : ℤ) - 1) ≤ 2 ^ (-2 : ℤ) := zpow_le_zpow_right₀ one_le_two (by omega)
      _ = 1 / 4 := by norm_num
  have h5 := two_zpow_pos (lo - 1)
  have sc := Real.sin_sq_add_cos_sq x
  have h6 : |Real.sin x| ^ 2 = Real.sin x ^ 2 := sq_abs _
  have h7 : |Real.cos x| ^ 2 = Real.cos x ^ 2 := sq_abs _
  have h8 := abs_nonneg (Real.cos x)
  have h9 := Real.abs_cos_le_one x
  have h10 := abs_nonneg (Real.sin x)
  refine nearestPos_near_one (d := |Real.sin x| ^ 2) hp (by omega) (by nlinarith) h9 ?_ (Or.inr hlo)
  nlinarith

theorem float_sound : Sound floatMachine := ieee_sound (by norm_num) (by norm_num) (by norm_num)
theorem double_sound : Sound doubleMachine := ieee_sound (by norm_num) (by norm_num) (by norm_num)
theorem longDouble_sound : Sound longDoubleMachine := ieee_sound (by norm_num) (by norm_num) (by norm_num)

end Trng
