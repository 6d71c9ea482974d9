import Verif.Spec.DistText
import Verif.Proofs.Float
import Verif.Proofs.Stream

namespace Trng.DistText
open Trng.DistTextSpec Trng.Stream Trng.Spec

/-- a value of the type, as if there was no largest value -/
def Val' (F : FloatType) (a : ℚ) : Prop := ∃ (m : ℕ) (e : ℤ), m < 2 ^ F.p ∧ F.emin ≤ e ∧ a = m * 2 ^ e

theorem Val'.of_value {F : FloatType} {a : ℚ} (h : Value F a) : Val' F a := by
  obtain ⟨m, e, h1, h2, h3, _⟩ := h
  exact ⟨m, e, h1, h2, h3⟩

theorem Val'.nonneg {F : FloatType} {a : ℚ} (h : Val' F a) : 0 ≤ a := by
  obtain ⟨m, e, _, _, rfl⟩ := h
  positivity

theorem p_pos (F : FloatType) : 1 ≤ F.p := by cases F <;> decide

theorem Val'.of_le {F : FloatType} {m : ℕ} {e : ℤ} (hm : m ≤ 2 ^ F.p) (he : F.emin ≤ e) : Val' F (m * 2 ^ e) := by
  rcases hm.lt_or_eq with h | h
  · exact ⟨m, e, h, he, rfl⟩
  · refine ⟨2 ^ (F.p - 1), e + 1, Nat.pow_lt_pow_right (by norm_num) (by have := p_pos F; omega), by omega, ?_⟩
    rw [h]
    obtain ⟨q, hq⟩ : ∃ q, F.p = q + 1 := ⟨F.p - 1, by have := p_pos F; omega⟩
    rw [hq, zpow_add₀ (by norm_num : (2 : ℚ) ≠ 0)]
    simp only [Nat.add_sub_cancel]
    push_cast
    ring

theorem zpow2_pos (e : ℤ) : (0 : ℚ) < 2 ^ e := by positivity

/-- the exponent of the last place -/
def place (F : FloatType) (a : ℚ) : ℤ := max (Int.log 2 a + 1 - F.p) F.emin

theorem round_def (F : FloatType) (a : ℚ) : F.round a = FP.rneInt (a / 2 ^ place F a) * 2 ^ place F a := rfl

theorem rneInt_int (n : ℤ) : FP.rneInt n = n := by
  have := (FP.rneInt_err (n : ℚ)).2 n
  simp only [sub_self, abs_zero] at this
  have := abs_nonpos_iff.1 this
  have h : ((FP.rneInt n : ℤ) : ℚ) = n := by linarith
  exact_mod_cast h

theorem rneInt_nonneg {q : ℚ} (h : 0 ≤ q) : 0 ≤ FP.rneInt q := by
  have := (FP.rneInt_err q).1
  rw [abs_le] at this
  by_contra hc
  have : (FP.rneInt q : ℚ) ≤ -1 := by exact_mod_cast (by omega : FP.rneInt q ≤ -1)
  linarith

theorem round_zero (F : FloatType) : F.round 0 = 0 := by
  rw [round_def, zero_div]
  have := rneInt_int 0
  rw [Int.cast_zero] at this
  rw [this]; simp

theorem grid_err (a : ℚ) (e : ℤ) (j : ℤ) : |(FP.rneInt (a / 2 ^ e) : ℚ) * 2 ^ e - a| ≤ |(j : ℚ) * 2 ^ e - a| := by
  have hs := zpow2_pos e
  have eq : ∀ j : ℤ, |(j : ℚ) * 2 ^ e - a| = |(j : ℚ) - a / 2 ^ e| * 2 ^ e := by
    intro j
    have : (j : ℚ) * 2 ^ e - a = ((j : ℚ) - a / 2 ^ e) * 2 ^ e := by field_simp
    rw [this, abs_mul, abs_of_pos hs]
  rw [eq, eq]
  exact mul_le_mul_of_nonneg_right ((FP.rneInt_err _).2 j) hs.le

theorem log_bounds {a : ℚ} (ha : 0 < a) : (2 : ℚ) ^ Int.log 2 a ≤ a ∧ a < 2 ^ (Int.log 2 a + 1) := by
  constructor
  · exact_mod_cast Int.zpow_log_le_self (b := 2) (by norm_num) ha
  · exact_mod_cast Int.lt_zpow_succ_log_self (b := 2) (by norm_num) a

/-- a value is a multiple of its last place, or smaller than the power of two -/
theorem Val'.multiple {F : FloatType} {w : ℚ} (h : Val' F w) (e f : ℤ) (he : e = max (f + 1 - F.p) F.emin) :
    (∃ j : ℤ, w = j * 2 ^ e) ∨ (e = f + 1 - F.p ∧ w < 2 ^ f) := by
  obtain ⟨m, g, h1, h2, rfl⟩ := h
  by_cases hg : e ≤ g
  · left
    refine ⟨m * 2 ^ (g - e).toNat, ?_⟩
    push_cast
    rw [mul_assoc, ← zpow_natCast, ← zpow_add₀ (by norm_num : (2 : ℚ) ≠ 0)]
    congr 2; omega
  · right
    have : e = f + 1 - F.p := by omega
    refine ⟨this, ?_⟩
    have hm : (m : ℚ) < 2 ^ (F.p : ℤ) := by rw [zpow_natCast]; exact_mod_cast h1
    calc (m : ℚ) * 2 ^ g < 2 ^ (F.p : ℤ) * 2 ^ g := by gcongr
      _ = 2 ^ (F.p + g) := by rw [← zpow_add₀ (by norm_num : (2 : ℚ) ≠ 0)]
      _ ≤ 2 ^ f := zpow_le_zpow_right₀ (by norm_num) (by omega)

/-- rounding gives a nearest value of the type -/
theorem round_near (F : FloatType) {a : ℚ} (ha : 0 ≤ a) :
    Val' F (F.round a) ∧ ∀ w, Val' F w → |F.round a - a| ≤ |w - a| := by
  rcases ha.eq_or_lt with rfl | ha
  · rw [round_zero]
    exact ⟨⟨0, F.emin, by positivity, le_refl _, by simp⟩, fun w _ => by simp⟩
  · obtain ⟨h1, h2⟩ := log_bounds ha
    rw [round_def]
    set f := Int.log 2 a with hf
    set e := place F a with he
    have hef : e = max (f + 1 - F.p) F.emin := rfl
    have hs := zpow2_pos e
    constructor
    · have h0 : 0 ≤ FP.rneInt (a / 2 ^ e) := rneInt_nonneg (by positivity)
      obtain ⟨r, hr⟩ := Int.eq_ofNat_of_zero_le h0
      rw [hr]
      refine Val'.of_le ?_ (by omega)
      have hlt : a / 2 ^ e < 2 ^ F.p := by
        rw [div_lt_iff₀ hs]
        calc a < 2 ^ (f + 1) := h2
          _ ≤ 2 ^ ((F.p : ℤ) + e) := zpow_le_zpow_right₀ (by norm_num) (by omega)
          _ = _ := by rw [zpow_add₀ (by norm_num : (2 : ℚ) ≠ 0), zpow_natCast]
      have := (FP.rneInt_err (a / 2 ^ e)).1
      rw [hr, abs_le] at this
      by_contra hc
      have hc' : (2 : ℚ) ^ F.p + 1 ≤ r := by exact_mod_cast (by omega : 2 ^ F.p + 1 ≤ r)
      push_cast at this
      linarith
    · intro w hw
      rcases hw.multiple e f hef with ⟨j, rfl⟩ | ⟨e1, hlt⟩
      · exact grid_err a e j
      · have := grid_err a e (2 ^ (F.p - 1))
        have e3 : (((2 ^ (F.p - 1) : ℤ)) : ℚ) * 2 ^ e = 2 ^ f := by
          push_cast
          rw [← zpow_natCast, ← zpow_add₀ (by norm_num : (2 : ℚ) ≠ 0)]
          congr 1
          have := p_pos F
          omega
        rw [e3] at this
        refine this.trans ?_
        rw [abs_of_nonpos (by linarith), abs_of_nonpos (by linarith)]
        linarith

theorem round_exact {F : FloatType} {a : ℚ} (h : Val' F a) : F.round a = a := by
  have := (round_near F h.nonneg).2 a h
  simp only [sub_self, abs_zero] at this
  linarith [abs_nonpos_iff.1 this]

theorem round_nonneg {F : FloatType} {a : ℚ} (h : 0 ≤ a) : 0 ≤ F.round a := (round_near F h).1.nonneg

/-- the number written with `k` decimals -/
def shown (k : ℕ) (a : ℚ) : ℚ := (FP.rneInt (a * 10 ^ k) : ℚ) / 10 ^ k

theorem shown_err (k : ℕ) (a : ℚ) : |shown k a - a| ≤ 1 / 10 ^ k / 2 := by
  have := (FP.rneInt_err (a * 10 ^ k)).1
  have h10 : (0 : ℚ) < 10 ^ k := by positivity
  have e : shown k a - a = ((FP.rneInt (a * 10 ^ k) : ℚ) - a * 10 ^ k) / 10 ^ k := by
    rw [shown]; field_simp
  rw [e, abs_div, abs_of_pos h10, div_le_iff₀ h10]
  calc _ ≤ (1 : ℚ) / 2 := this
    _ = _ := by field_simp

theorem shown_nonneg {k : ℕ} {a : ℚ} (h : 0 ≤ a) : 0 ≤ shown k a := by
  have := rneInt_nonneg (q := a * 10 ^ k) (by positivity)
  have h' : (0 : ℚ) ≤ FP.rneInt (a * 10 ^ k) := by exact_mod_cast this
  unfold shown; positivity

theorem shown_int {k : ℕ} {a : ℚ} {j : ℤ} (h : a * 10 ^ k = j) : shown k a = a := by
  rw [shown, h, rneInt_int, ← h]; field_simp

/-- a number read back is near -/
theorem round_shown_err {F : FloatType} {k : ℕ} {a : ℚ} (h : Val' F a) : |F.round (shown k a) - a| ≤ 1 / 10 ^ k := by
  have h1 := (round_near F (shown_nonneg (k := k) h.nonneg)).2 a h
  have h2 := shown_err k a
  rw [abs_sub_comm a] at h1
  calc |F.round (shown k a) - a| ≤ |F.round (shown k a) - shown k a| + |shown k a - a| := abs_sub_le _ _ _
    _ ≤ 1 / 10 ^ k / 2 + 1 / 10 ^ k / 2 := by linarith
    _ = _ := by ring

theorem val_grid {F : FloatType} {a : ℚ} (h : Val' F a) : ∃ r : ℤ, a = r * 2 ^ place F a := by
  refine ⟨FP.rneInt (a / 2 ^ place F a), ?_⟩
  have := round_exact h
  rw [round_def] at this
  exact this.symm

/-- the distance to other values -/
theorem val_gap {F : FloatType} {a w : ℚ} (ha : Val' F a) (hpos : 0 < a) (hw : Val' F w) (hne : w ≠ a)
    (h2 : ¬(place F a = Int.log 2 a + 1 - F.p ∧ a = 2 ^ Int.log 2 a)) : 2 ^ place F a ≤ |w - a| := by
  obtain ⟨r, hr⟩ := val_grid ha
  obtain ⟨h1, _⟩ := log_bounds hpos
  set f := Int.log 2 a with hf
  set e := place F a with he
  have hef : e = max (f + 1 - F.p) F.emin := rfl
  have hs := zpow2_pos e
  have key : ∀ j : ℤ, (j : ℚ) * 2 ^ e ≠ a → 2 ^ e ≤ |(j : ℚ) * 2 ^ e - a| := by
    intro j hj
    have : (j : ℚ) * 2 ^ e - a = ((j - r : ℤ) : ℚ) * 2 ^ e := by rw [hr]; push_cast; ring
    rw [this, abs_mul, abs_of_pos hs]
    have : (1 : ℚ) ≤ |((j - r : ℤ) : ℚ)| := by
      rw [← Int.cast_abs]
      exact_mod_cast Int.one_le_abs (sub_ne_zero.2 fun h => hj (by rw [h]; exact hr.symm))
    nlinarith
  rcases hw.multiple e f hef with ⟨j, rfl⟩ | ⟨e1, hlt⟩
  · exact key j hne
  · have e3 : (((2 ^ (F.p - 1) : ℤ)) : ℚ) * 2 ^ e = 2 ^ f := by
      push_cast
      rw [← zpow_natCast, ← zpow_add₀ (by norm_num : (2 : ℚ) ≠ 0)]
      congr 1
      have := p_pos F
      omega
    have hne' : (2 : ℚ) ^ f ≠ a := fun h => h2 ⟨e1, h.symm⟩
    have := key (2 ^ (F.p - 1)) (by rw [e3]; exact hne')
    rw [e3, abs_of_nonpos (by linarith)] at this
    rw [abs_of_nonpos (by linarith)]
    linarith

/-- if the last place is coarser than the decimals, the number survives -/
theorem round_shown_coarse {F : FloatType} {k : ℕ} (hk : 5 ^ k ≤ 2 ^ (F.p - 1)) {a : ℚ} (ha : Val' F a) (hpos : 0 < a)
    (hc : (1 : ℚ) / 10 ^ k < 2 ^ place F a) : F.round (shown k a) = a := by
  by_cases h2 : place F a = Int.log 2 a + 1 - F.p ∧ a = 2 ^ Int.log 2 a
  · obtain ⟨he, h2⟩ := h2
    set f := Int.log 2 a with hf
    have hfk : 0 ≤ f + k := by
      by_contra hcon
      have h10 : (10 : ℚ) ^ k = 5 ^ k * 2 ^ k := by rw [← mul_pow]; norm_num
      have hk' : (5 : ℚ) ^ k ≤ 2 ^ (F.p - 1) := by exact_mod_cast hk
      rw [he, h10, div_lt_iff₀ (by positivity)] at hc
      have : (2 : ℚ) ^ (f + 1 - F.p) * (5 ^ k * 2 ^ k) ≤ 2 ^ (f + k) := by
        calc (2 : ℚ) ^ (f + 1 - F.p) * (5 ^ k * 2 ^ k) ≤ 2 ^ (f + 1 - F.p) * (2 ^ (F.p - 1) * 2 ^ k) := by gcongr
          _ = _ := by
            rw [← zpow_natCast, ← zpow_natCast, ← zpow_add₀ (by norm_num : (2 : ℚ) ≠ 0),
              ← zpow_add₀ (by norm_num : (2 : ℚ) ≠ 0)]
            congr 1
            have := p_pos F
            omega
      have h1 : (2 : ℚ) ^ (f + k) ≤ 1 := by
        rw [← zpow_zero (2 : ℚ)]
        exact zpow_le_zpow_right₀ (by norm_num) (by omega)
      linarith
    have : shown k a = a := by
      refine shown_int (j := 2 ^ (f + k).toNat * 5 ^ k) ?_
      rw [h2]
      push_cast
      have h1 : (2 : ℚ) ^ (f + k).toNat = 2 ^ (f + k) := by rw [← zpow_natCast, Int.toNat_of_nonneg hfk]
      rw [h1, zpow_add₀ (by norm_num : (2 : ℚ) ≠ 0), zpow_natCast, mul_assoc, ← mul_pow]
      norm_num
    rw [this, round_exact ha]
  · by_contra hne
    have h1 := val_gap ha hpos (round_near F (shown_nonneg (k := k) ha.nonneg)).1 hne h2
    have h3 := round_shown_err (k := k) ha
    linarith

/-- a number survives exactly if it is the value of a literal with as many decimals -/
theorem round_shown_literal {F : FloatType} {k : ℕ} (hk : 5 ^ k ≤ 2 ^ (F.p - 1)) {a : ℚ} (ha : Val' F a)
    (hl : Literal F k a) : F.round (shown k a) = a := by
  rcases ha.nonneg.eq_or_lt with rfl | hpos
  · have : shown k 0 = 0 := shown_int (j := 0) (by simp)
    rw [this, round_zero]
  rcases lt_or_ge ((1 : ℚ) / 10 ^ k) (2 ^ place F a) with hc | hc
  · exact round_shown_coarse hk ha hpos hc
  obtain ⟨r, hr⟩ := val_grid ha
  set e := place F a with he
  have hs := zpow2_pos e
  have h10 : (0 : ℚ) < 10 ^ k := by positivity
  rcases hc.lt_or_eq with hc | hc
  · obtain ⟨j, hj⟩ := hl
    set x : ℚ := j / 10 ^ k with hx
    have hx0 : 0 ≤ x := by positivity
    have hnear := (round_near F hx0).2
    rw [← hj] at hnear
    obtain ⟨f1, f2⟩ := log_bounds hpos
    have hr1 : 1 ≤ r := by
      by_contra hcon
      have : (r : ℚ) ≤ 0 := by exact_mod_cast (by omega : r ≤ 0)
      have : a ≤ 0 := by rw [hr]; nlinarith
      linarith
    have hrp : r < 2 ^ F.p := by
      have : (r : ℚ) * 2 ^ e < 2 ^ F.p * 2 ^ e := by
        rw [← hr]
        calc a < 2 ^ (Int.log 2 a + 1) := f2
          _ ≤ 2 ^ ((F.p : ℤ) + e) := zpow_le_zpow_right₀ (by norm_num) (by
            have : e = max (Int.log 2 a + 1 - F.p) F.emin := rfl
            omega)
          _ = _ := by rw [zpow_add₀ (by norm_num : (2 : ℚ) ≠ 0), zpow_natCast]
      have := lt_of_mul_lt_mul_right this hs.le
      exact_mod_cast this
    have hemin : F.emin ≤ e := le_max_right _ _
    have hup : Val' F (a + 2 ^ e) := by
      have := Val'.of_le (F := F) (m := (r + 1).toNat) (e := e) (by
        have : ((r + 1).toNat : ℤ) ≤ (2 ^ F.p : ℕ) := by push_cast; omega
        exact_mod_cast this) hemin
      have hc' : (((r + 1).toNat : ℕ) : ℚ) = r + 1 := by
        have : (((r + 1).toNat : ℕ) : ℤ) = r + 1 := by omega
        exact_mod_cast this
      rw [hc'] at this
      rw [hr]; convert this using 1; ring
    have hdn : Val' F (a - 2 ^ e) := by
      have := Val'.of_le (F := F) (m := (r - 1).toNat) (e := e) (by
        have : ((r - 1).toNat : ℤ) ≤ (2 ^ F.p : ℕ) := by push_cast; omega
        exact_mod_cast this) hemin
      have hc' : (((r - 1).toNat : ℕ) : ℚ) = r - 1 := by
        have : (((r - 1).toNat : ℕ) : ℤ) = r - 1 := by omega
        exact_mod_cast this
      rw [hc'] at this
      rw [hr]; convert this using 1; ring
    have herr : |a - x| ≤ 2 ^ e / 2 := by
      rcases le_total x a with h | h
      · have := hnear _ hdn
        rw [abs_of_nonneg (by linarith)] at this ⊢
        rcases abs_cases (a - 2 ^ e - x) with h' | h' <;> linarith [h'.1]
      · have := hnear _ hup
        rw [abs_of_nonpos (by linarith)] at this ⊢
        rcases abs_cases (a + 2 ^ e - x) with h' | h' <;> linarith [h'.1]
    have hj' : FP.rneInt (a * 10 ^ k) = j := by
      have h1 := (FP.rneInt_err (a * 10 ^ k)).2 j
      have h2 : |(j : ℚ) - a * 10 ^ k| < 1 / 2 := by
        have : (j : ℚ) - a * 10 ^ k = -(a - x) * 10 ^ k := by rw [hx]; field_simp; ring
        rw [this, abs_mul, abs_neg, abs_of_pos h10]
        have : (2 : ℚ) ^ e * 10 ^ k < 1 := by rwa [← lt_div_iff₀ h10]
        nlinarith
      by_contra hcon
      have h3 : (1 : ℚ) ≤ |((FP.rneInt (a * 10 ^ k) - j : ℤ) : ℚ)| := by
        rw [← Int.cast_abs]
        exact_mod_cast Int.one_le_abs (sub_ne_zero.2 hcon)
      have h4 := abs_sub_le (FP.rneInt (a * 10 ^ k) : ℚ) (a * 10 ^ k) j
      rw [abs_sub_comm (a * 10 ^ k)] at h4
      push_cast at h3 h1
      linarith
    have : shown k a = x := by rw [shown, hj', hx]; push_cast; rfl
    rw [this]; exact hj.symm
  · have : shown k a = a := by
      refine shown_int (j := r) ?_
      rw [hr, hc]; field_simp
    rw [this, round_exact ha]

/-- numbers that are not small survive -/
theorem literal_of_le {F : FloatType} {k : ℕ} (hk : 5 ^ k ≤ 2 ^ (F.p - 1)) {t : ℤ} (ht : (1 : ℚ) / 10 ^ k < 2 ^ (t + 1 - F.p))
    {a : ℚ} (ha : Val' F a) (hle : 2 ^ t ≤ a) : Literal F k a := by
  have hpos : 0 < a := lt_of_lt_of_le (zpow2_pos t) hle
  have hlog : t ≤ Int.log 2 a := by
    have := (Int.zpow_le_iff_le_log (b := 2) (by norm_num) hpos (x := t)).1 (by exact_mod_cast hle)
    exact this
  have hc : (1 : ℚ) / 10 ^ k < 2 ^ place F a :=
    lt_of_lt_of_le ht (zpow_le_zpow_right₀ (by norm_num) (by unfold place; omega))
  have h0 := rneInt_nonneg (q := a * 10 ^ k) (by positivity)
  refine ⟨(FP.rneInt (a * 10 ^ k)).toNat, ?_⟩
  have : (((FP.rneInt (a * 10 ^ k)).toNat : ℕ) : ℚ) = FP.rneInt (a * 10 ^ k) := by
    have : (((FP.rneInt (a * 10 ^ k)).toNat : ℕ) : ℤ) = FP.rneInt (a * 10 ^ k) := by omega
    exact_mod_cast this
  rw [this]
  exact (round_shown_coarse hk ha hpos hc).symm

/-- conversely -/
theorem literal_of_round_shown {F : FloatType} {k : ℕ} {a : ℚ} (h0 : 0 ≤ a) (h : F.round (shown k a) = a) : Literal F k a := by
  have h0 := rneInt_nonneg (q := a * 10 ^ k) (by positivity)
  refine ⟨(FP.rneInt (a * 10 ^ k)).toNat, ?_⟩
  have : (((FP.rneInt (a * 10 ^ k)).toNat : ℕ) : ℚ) = FP.rneInt (a * 10 ^ k) := by
    have : (((FP.rneInt (a * 10 ^ k)).toNat : ℕ) : ℤ) = FP.rneInt (a * 10 ^ k) := by omega
    exact_mod_cast this
  rw [this]
  exact h.symm

/-- small numbers do not survive -/
theorem shown_small {k : ℕ} {a : ℚ} (h0 : 0 ≤ a) (h : a < 1 / 10 ^ k / 2) : shown k a = 0 := by
  have h10 : (0 : ℚ) < 10 ^ k := by positivity
  have : FP.rneInt (a * 10 ^ k) = 0 := by
    have h1 : a * 10 ^ k < 1 / 2 := by
      have : a < (1 / 2) / 10 ^ k := by rw [div_right_comm]; exact h
      rwa [lt_div_iff₀ h10] at this
    have hf : ⌊a * 10 ^ k⌋ = 0 := by
      rw [Int.floor_eq_zero_iff]
      exact ⟨by positivity, by linarith⟩
    unfold FP.rneInt
    rw [hf, if_pos (by push_cast; linarith)]
  rw [shown, this]; simp

end Trng.DistText
