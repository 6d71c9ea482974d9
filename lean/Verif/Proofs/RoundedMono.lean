import Verif.Proofs.RoundedLogistic
import Verif.Proofs.Normal
import Mathlib.Analysis.SpecialFunctions.Integrals.Basic

/-! Monotony of the distribution functions of the normal and the tent distribution in rounded arithmetic. -/
namespace Trng
open XR Spec Machine
open Classical

namespace Rounded
variable {M : Machine}

theorem lt_of_le_lt {x y : XR} {r : ℝ} (h : x ≤ y) (g : y < fin r) : x < fin r := by
  cases x <;> cases y <;> first | exact absurd h id | exact absurd g id | trivial | exact lt_of_le_of_lt (α := ℝ) h g
theorem lt_of_lt_le {x y : XR} {r : ℝ} (g : fin r < x) (h : x ≤ y) : fin r < y := by
  cases x <;> cases y <;> first | exact absurd h id | exact absurd g id | trivial | exact lt_of_lt_of_le (α := ℝ) g h

/-- `Phi` does not decrease if its three branches fit together at the joints `a` and `b`. -/
theorem Phi_mono (S : Sound M) {c q a b : ℝ} (hc : 0 < c) (ea : M.mul (fin (-q)) (fin c) = fin a) (eb : M.mul (fin q) (fin c) = fin b) (hab : a ≤ b)
    (ja : M.mul (fin (1 / 2)) (M.erfc (fin (-a))) ≤ M.add (fin (1 / 2)) (M.mul (fin (1 / 2)) (M.erf (fin a))))
    (jb : M.add (fin (1 / 2)) (M.mul (fin (1 / 2)) (M.erf (fin b))) ≤ M.sub 1 (M.mul (fin (1 / 2)) (M.erfc (fin b)))) {x y : XR} (h : x ≤ y) :
    Phi M c q x ≤ Phi M c q y := by
  have R := S.rounding
  have L := S.library
  have hh : (0 : ℝ) < 1 / 2 := by norm_num
  have low : ∀ {x y : XR}, x ≤ y → M.mul (fin (1 / 2)) (M.erfc (-x)) ≤ M.mul (fin (1 / 2)) (M.erfc (-y)) := fun h =>
    mul_left R hh (L.erfc_anti _ _ (neg_le h))
  have mid : ∀ {x y : XR}, x ≤ y → M.add (fin (1 / 2)) (M.mul (fin (1 / 2)) (M.erf x)) ≤ M.add (fin (1 / 2)) (M.mul (fin (1 / 2)) (M.erf y)) := fun h =>
    add_left R _ (mul_left R hh (L.erf_mono _ _ h))
  have up : ∀ {x y : XR}, x ≤ y → M.sub 1 (M.mul (fin (1 / 2)) (M.erfc x)) ≤ M.sub 1 (M.mul (fin (1 / 2)) (M.erfc y)) := fun h => by
    rw [one_def]; exact sub_left R _ (mul_left R hh (L.erfc_anti _ _ h))
  have hX := mul_right R hc h
  simp only [Phi, ea, eb]
  generalize M.mul x (fin c) = X at hX ⊢
  generalize M.mul y (fin c) = Y at hX ⊢
  have ja' : M.mul (fin (1 / 2)) (M.erfc (-fin a)) ≤ M.add (fin (1 / 2)) (M.mul (fin (1 / 2)) (M.erf (fin a))) := by rw [neg_fin]; exact ja
  by_cases x1 : X < fin a
  · rw [if_pos x1]
    by_cases y1 : Y < fin a
    · rw [if_pos y1]; exact low hX
    · rw [if_neg y1]
      have l1 := le_trans' (low (lt_le x1)) ja'
      by_cases y2 : fin b < Y
      · rw [if_pos y2]
        exact le_trans' (le_trans' l1 (mid ((fin_le _ _).2 hab))) (le_trans' jb (up (lt_le y2)))
      · rw [if_neg y2]
        exact le_trans' l1 (mid (not_lt_ge (le_self' hX) y1))
  · have y1 : ¬ Y < fin a := fun g => x1 (lt_of_le_lt hX g)
    rw [if_neg x1, if_neg y1]
    by_cases x2 : fin b < X
    · rw [if_pos x2, if_pos (lt_of_lt_le x2 hX)]
      exact up hX
    · rw [if_neg x2]
      by_cases y2 : fin b < Y
      · rw [if_pos y2]
        exact le_trans' (mid (not_lt_le (le_self hX) x2)) (le_trans' jb (up (lt_le y2)))
      · rw [if_neg y2]; exact mid hX

/-! ### The joints in double -/

/-- The beginning of the series of `∫ exp(-t²)` from 0 to `z`. -/
def erfSum (z : ℚ) : ℚ := ∑ m ∈ Finset.range 22, (-1) ^ m * z ^ (2 * m + 1) / (m.factorial * (2 * m + 1))

theorem erf_integral {z : ℚ} (h0 : 0 ≤ z) (h1 : z ≤ 1) : |(∫ t in (0 : ℝ)..z, Real.exp (-t ^ 2)) - (erfSum z : ℚ)| ≤ 1 / 10 ^ 20 := by
  have z0 : (0 : ℝ) ≤ z := by exact_mod_cast h0
  have z1 : (z : ℝ) ≤ 1 := by exact_mod_cast h1
  have e : (∫ t in (0 : ℝ)..z, ∑ m ∈ Finset.range 22, (-t ^ 2) ^ m / (m.factorial : ℝ)) = (erfSum z : ℚ) := by
    rw [intervalIntegral.integral_finset_sum (fun m _ => Continuous.intervalIntegrable (by fun_prop) _ _), erfSum, Rat.cast_sum]
    refine Finset.sum_congr rfl fun m _ => ?_
    have : ∀ t : ℝ, (-t ^ 2) ^ m / (m.factorial : ℝ) = (-1) ^ m / m.factorial * t ^ (2 * m) := fun t => by
      rw [neg_pow, ← pow_mul]; ring
    simp only [this]
    rw [intervalIntegral.integral_const_mul, integral_pow]
    push_cast
    have : (m.factorial : ℝ) ≠ 0 := by positivity
    have : (2 * (m : ℝ) + 1) ≠ 0 := by positivity
    field_simp
    ring
  rw [← e, ← intervalIntegral.integral_sub (Continuous.intervalIntegrable (by fun_prop) _ _) (Continuous.intervalIntegrable (by fun_prop) _ _)]
  have := intervalIntegral.norm_integral_le_of_norm_le_const (a := (0 : ℝ)) (b := z) (C := 1 / 10 ^ 20)
    (f := fun t => Real.exp (-t ^ 2) - ∑ m ∈ Finset.range 22, (-t ^ 2) ^ m / (m.factorial : ℝ)) ?_
  · rw [Real.norm_eq_abs] at this
    refine this.trans ?_
    rw [sub_zero, abs_of_nonneg z0]
    linarith
  · intro t ht
    rw [Set.uIoc_of_le z0] at ht
    have hx : |(-t ^ 2)| ≤ 1 := by
      rw [abs_neg, abs_pow, abs_of_pos ht.1]
      exact pow_le_one₀ ht.1.le (ht.2.trans z1)
    rw [Real.norm_eq_abs]
    refine (Real.exp_bound hx (n := 22) (by norm_num)).trans ((mul_le_mul_of_nonneg_right (pow_le_one₀ (abs_nonneg _) hx) (by positivity)).trans ?_)
    rw [one_mul, show Nat.factorial 22 = 1124000727777607680000 by decide +kernel]
    norm_num

/-- The upper joint: `quartileDouble` times `oneOverSqrt2Double`, rounded. -/
def joint : ℚ := 0x1e861fbb24c00a / 2 ^ 54

theorem joint_sum : 44311346272637901033 / 10 ^ 20 ≤ erfSum joint ∧ erfSum joint ≤ 44311346272637901036 / 10 ^ 20 := by decide +kernel

theorem erf_joint : |erfR (joint : ℝ) - 1 / 2| < 1 / 2 ^ 56 := by
  have h := abs_le.1 (erf_integral (z := joint) (by rw [joint]; norm_num) (by rw [joint]; norm_num))
  have h1 : ((44311346272637901033 / 10 ^ 20 : ℚ) : ℝ) ≤ (erfSum joint : ℚ) := Rat.cast_le.2 joint_sum.1
  have h2 : ((erfSum joint : ℚ) : ℝ) ≤ ((44311346272637901036 / 10 ^ 20 : ℚ) : ℝ) := Rat.cast_le.2 joint_sum.2
  push_cast at h1 h2
  rw [erfR]
  generalize (∫ t in (0 : ℝ)..(joint : ℚ), Real.exp (-t ^ 2)) = I at h ⊢
  generalize ((erfSum joint : ℚ) : ℝ) = s at h h1 h2
  have i1 : 44311346272637901032 / 10 ^ 20 ≤ I := by linarith [h.1]
  have i2 : I ≤ 44311346272637901037 / 10 ^ 20 := by linarith [h.2]
  have hs : Real.sqrt Real.pi ^ 2 = Real.pi := Real.sq_sqrt Real.pi_pos.le
  have hsp : 0 < Real.sqrt Real.pi := Real.sqrt_pos.2 Real.pi_pos
  have p1 := Real.pi_gt_d20
  have p2 := Real.pi_lt_d20
  generalize Real.sqrt Real.pi = r at hs hsp ⊢
  rw [← hs] at p1 p2
  have q : 2 / r * I = 2 * I / r := by ring
  rw [q, abs_lt]
  constructor
  · rw [neg_lt_sub_iff_lt_add, ← sub_lt_iff_lt_add', lt_div_iff₀ hsp]
    refine lt_of_pow_lt_pow_left₀ 2 (by linarith) ?_
    nlinarith
  · rw [sub_lt_iff_lt_add, div_lt_iff₀ hsp]
    refine lt_of_pow_lt_pow_left₀ 2 (by positivity) ?_
    nlinarith

theorem dbl_half_near {x : ℝ} (h : |x - 1 / 2| < 1 / 2 ^ 56) : doubleMachine.rnd x = fin (1 / 2) := by
  obtain ⟨h1, h2⟩ := abs_lt.1 h
  have R := double_sound.rounding
  have g1 := R.mono (1 / 2 - 1 / 2 ^ 56) x (by linarith)
  have g2 := R.mono x (1 / 2 + 1 / 2 ^ 56) (by linarith)
  have e2 : doubleMachine.rnd (1 / 2 + 1 / 2 ^ 56) = fin (1 / 2) := by
    rw [show (1 / 2 : ℝ) = (2 ^ 52 : ℕ) * 2 ^ (-53 : ℤ) by norm_num]
    exact ieee_near (by norm_num) (by norm_num) (by norm_num) (by norm_num) (by norm_num) (by norm_num) (by norm_num)
  have e1 : doubleMachine.rnd (1 / 2 - 1 / 2 ^ 56) = fin (1 / 2) := by
    have hx : (0 : ℝ) < 1 / 2 - 1 / 2 ^ 56 := by norm_num
    have hl : Int.log 2 (1 / 2 - 1 / 2 ^ 56 : ℝ) = -2 := by
      have a : (2 : ℝ) ^ Int.log 2 (1 / 2 - 1 / 2 ^ 56 : ℝ) < 2 ^ (-1 : ℤ) := (log_le hx).trans_lt (by norm_num)
      have b : (2 : ℝ) ^ (-2 : ℤ) < 2 ^ (Int.log 2 (1 / 2 - 1 / 2 ^ 56 : ℝ) + 1) := lt_of_le_of_lt (by norm_num) lt_log
      have a := (zpow_lt_zpow_iff_right₀ (one_lt_two (α := ℝ))).1 a
      have b := (zpow_lt_zpow_iff_right₀ (one_lt_two (α := ℝ))).1 b
      omega
    have hu : ulpExp 53 (-1074) (1 / 2 - 1 / 2 ^ 56 : ℝ) = -54 := by unfold ulpExp; rw [hl]; norm_num
    have hv : nearestPos 53 (-1074) (1 / 2 - 1 / 2 ^ 56 : ℝ) = 1 / 2 := by
      unfold nearestPos
      rw [hu]
      have : (1 / 2 - 1 / 2 ^ 56 : ℝ) / 2 ^ (-54 : ℤ) = 9007199254740992 - 1 / 4 := by norm_num
      have hf : ⌊(9007199254740992 - 1 / 4 : ℝ)⌋ = 9007199254740991 := by rw [Int.floor_eq_iff]; norm_num
      rw [this, nearestEven, hf, if_neg (by norm_num), if_pos (by norm_num)]
      norm_num
    rw [dbl_rnd, ieee_nonneg hx.le, hv, if_neg]
    rw [not_le]
    exact lt_of_lt_of_le (show (1 / 2 : ℝ) < 1 by norm_num) (one_le_zpow₀ one_le_two (by norm_num))
  rw [e1] at g1
  rw [e2] at g2
  obtain ⟨r, er, r1, r2⟩ := between g1 g2
  rw [er, show r = 1 / 2 by linarith]

theorem dbl_half_near_neg {x : ℝ} (h : |x - 1 / 2| < 1 / 2 ^ 56) : doubleMachine.rnd (-x) = fin (-(1 / 2)) := by
  have hx : 0 < x := by obtain ⟨h1, h2⟩ := abs_lt.1 h; norm_num at h1; linarith
  have := dbl_half_near h
  rw [dbl_rnd, ieee_nonneg hx.le] at this
  rw [dbl_rnd, ieee_neg (by linarith), neg_neg]
  split_ifs at this with h'
  rw [if_neg h', (fin_inj _ _).1 this]

/-- `Phi` does not decrease in double. -/
theorem Phi_mono_double {x y : XR} (h : x ≤ y) : Phi doubleMachine oneOverSqrt2Double quartileDouble x ≤ Phi doubleMachine oneOverSqrt2Double quartileDouble y := by
  have R := double_sound.rounding
  have ej : ((joint : ℚ) : ℝ) = (0x1e861fbb24c00a : ℕ) * 2 ^ (-54 : ℤ) := by rw [joint]; push_cast; norm_num
  have eb : doubleMachine.rnd (quartileDouble * oneOverSqrt2Double) = fin (joint : ℝ) := by
    rw [ej]
    exact ieee_near (by norm_num) (by norm_num) (by norm_num) (by norm_num) (by norm_num [quartileDouble, oneOverSqrt2Double])
      (by norm_num [quartileDouble, oneOverSqrt2Double]) (by norm_num [quartileDouble, oneOverSqrt2Double])
  have ea : doubleMachine.rnd (-quartileDouble * oneOverSqrt2Double) = fin (-(joint : ℝ)) := by
    have hp : 0 < quartileDouble * oneOverSqrt2Double := by norm_num [quartileDouble, oneOverSqrt2Double]
    have := eb
    rw [dbl_rnd, ieee_nonneg hp.le] at this
    rw [neg_mul, dbl_rnd, ieee_neg (by linarith), neg_neg]
    split_ifs at this with h'
    rw [if_neg h', (fin_inj _ _).1 this]
  have hj : (0 : ℝ) ≤ (joint : ℚ) := by rw [ej]; norm_num
  have vb : doubleMachine.erf (fin (joint : ℝ)) = fin (1 / 2) := dbl_half_near erf_joint
  have va : doubleMachine.erf (fin (-(joint : ℝ))) = fin (-(1 / 2)) := by
    show doubleMachine.rnd (erfR (-(joint : ℝ))) = _
    rw [erfR_neg]; exact dbl_half_near_neg erf_joint
  have vc : doubleMachine.erfc (fin (joint : ℝ)) = fin (1 / 2) := by
    show doubleMachine.rnd (1 - erfR (joint : ℝ)) = _
    refine dbl_half_near ?_
    rw [show 1 - erfR (joint : ℝ) - 1 / 2 = -(erfR (joint : ℝ) - 1 / 2) by ring, abs_neg]
    exact erf_joint
  have d2 := dbl_two (j := -2) (by norm_num) (by norm_num)
  have quarter : doubleMachine.rnd (1 / 4) = fin (1 / 4) := by norm_num at d2 ⊢; exact d2
  have three : doubleMachine.rnd (3 / 4) = fin (3 / 4) := by
    have := dbl_dyadic (n := 3) (e := -2) (by norm_num) (by norm_num) (by norm_num)
    norm_num at this ⊢; exact this
  refine Phi_mono double_sound (a := -(joint : ℝ)) (b := (joint : ℝ)) (by norm_num [oneOverSqrt2Double]) ?_ ?_ (by linarith) ?_ ?_ h
  · rw [mul_fin, ea]
  · rw [mul_fin, eb]
  · rw [neg_neg, vc, va, mul_fin, mul_fin, show (1 / 2 : ℝ) * (1 / 2) = 1 / 4 by norm_num, show (1 / 2 : ℝ) * -(1 / 2) = -(1 / 4) by norm_num, quarter,
      R.neg _ quarter, add_fin, show (1 / 2 : ℝ) + -(1 / 4) = 1 / 4 by norm_num, quarter]
    exact (fin_le _ _).2 (le_refl _)
  · rw [vb, vc, mul_fin, show (1 / 2 : ℝ) * (1 / 2) = 1 / 4 by norm_num, quarter, add_fin, one_def, sub_fin, show (1 / 2 : ℝ) + 1 / 4 = 3 / 4 by norm_num,
      show (1 : ℝ) - 1 / 4 = 3 / 4 by norm_num]
    rw [three]
    exact (fin_le _ _).2 (le_refl _)

/-! ### tent_dist -/

theorem sq_mono (R : Rounding M.rnd) {r s : ℝ} (h0 : 0 ≤ r) (h : r ≤ s) : M.mul (fin r) (fin r) ≤ M.mul (fin s) (fin s) := by
  rw [mul_fin, mul_fin]; exact R.mono _ _ (by nlinarith)

theorem tent_mono (S : Sound M) {m d c : ℝ} (hd : 0 < d) (rd : M.Rep d) (hc : 0 < c) (e : M.mul (M.mul 2 (fin d)) (fin d) = fin c)
    (hh : M.div (M.mul (fin d) (fin d)) (fin c) ≤ fin (1 / 2)) : CdfIncreases M (tent M (fin m) (fin d)).cdf := by
  have R := S.rounding
  -- the two halves, as functions of the distance from the ends
  have half : ∀ r : ℝ, 0 ≤ r → r ≤ d → M.div (M.mul (fin r) (fin r)) (fin c) ≤ fin (1 / 2) := fun r h0 h1 =>
    le_trans' (div_right R hc (sq_mono R h0 h1)) hh
  have pos : ∀ r : ℝ, fin 0 ≤ M.div (M.mul (fin r) (fin r)) (fin c) := fun r => by
    have := div_right R hc (show fin 0 ≤ M.mul (fin r) (fin r) by rw [mul_fin, ← R.zero]; exact R.mono _ _ (mul_self_nonneg r))
    rwa [div_fin _ hc.ne', zero_div, R.zero] at this
  have low : ∀ z : XR, ¬ z ≤ fin (-d) → z ≤ fin 0 → ∃ r, M.add z (fin d) = fin r ∧ 0 ≤ r ∧ r ≤ d := by
    intro z h1 h2
    have a := add_right R d (not_le_ge (le_self h2) h1)
    have b := add_right R d h2
    rw [add_fin, neg_add_cancel, R.zero] at a
    rw [add_fin, zero_add, show M.rnd d = fin d from rd] at b
    exact between a b
  have upp : ∀ z : XR, ¬ z ≤ fin 0 → z < fin d → ∃ r, M.sub z (fin d) = fin r ∧ -d ≤ r ∧ r ≤ 0 := by
    intro z h1 h2
    have a := sub_right R d (not_le_ge (le_self (lt_le h2)) h1)
    have b := sub_right R d (lt_le h2)
    rw [sub_fin, zero_sub, R.neg d rd] at a
    rw [sub_fin, sub_self, R.zero] at b
    exact between a b
  have upv : ∀ z : XR, ¬ z ≤ fin 0 → z < fin d → fin (1 / 2) ≤ M.sub (fin 1) (M.div (M.mul (M.sub z (fin d)) (M.sub z (fin d))) (fin c)) ∧
      M.sub (fin 1) (M.div (M.mul (M.sub z (fin d)) (M.sub z (fin d))) (fin c)) ≤ fin 1 := by
    intro z h1 h2
    obtain ⟨r, er, r0, r1⟩ := upp z h1 h2
    rw [er]
    have a := half (-r) (by linarith) (by linarith)
    have e2 : M.mul (fin (-r)) (fin (-r)) = M.mul (fin r) (fin r) := by rw [mul_fin, mul_fin]; congr 1; ring
    rw [e2] at a
    have a := sub_left R 1 a
    have b := sub_left R 1 (pos r)
    rw [sub_fin, show (1 : ℝ) - 1 / 2 = 1 / 2 by norm_num, R.half] at a
    rw [sub_fin, sub_zero, R.one] at b
    exact ⟨a, b⟩
  intro x y hx hy hxy
  have hz := sub_right R m hxy
  simp only [tent]
  generalize M.sub x (fin m) = z at hz ⊢
  generalize M.sub y (fin m) = w at hz ⊢
  rw [zero_def, one_def, e, neg_fin]
  have u0 : fin 0 ≤ fin (1 : ℝ) := (fin_le _ _).2 zero_le_one
  have uh : fin (1 / 2 : ℝ) ≤ fin 1 := (fin_le _ _).2 (by norm_num)
  have uh' : fin (0 : ℝ) ≤ fin (1 / 2) := (fin_le _ _).2 (by norm_num)
  by_cases z1 : z ≤ fin (-d)
  · rw [if_pos z1]
    split_ifs with w1 w2 w3
    · exact unit_zero.1
    · obtain ⟨r, er, -⟩ := low w w1 w2
      rw [er]; exact pos r
    · exact le_trans' uh' (upv w w2 w3).1
    · exact u0
  · have w1 : ¬ w ≤ fin (-d) := fun g => z1 (le_trans' hz g)
    rw [if_neg z1, if_neg w1]
    by_cases z2 : z ≤ fin 0
    · rw [if_pos z2]
      obtain ⟨r, er, r0, r1⟩ := low z z1 z2
      have hv : M.div (M.mul (M.add z (fin d)) (M.add z (fin d))) (fin c) ≤ fin (1 / 2) := by rw [er]; exact half r r0 r1
      split_ifs with w2 w3
      · obtain ⟨s, es, s0, s1⟩ := low w w1 w2
        have hrs := add_right R d hz
        rw [er, es] at hrs
        rw [er, es]
        exact div_right R hc (sq_mono R r0 hrs)
      · exact le_trans' hv (upv w w2 w3).1
      · exact le_trans' hv uh
    · have w2 : ¬ w ≤ fin 0 := fun g => z2 (le_trans' hz g)
      rw [if_neg z2, if_neg w2]
      by_cases z3 : z < fin d
      · rw [if_pos z3]
        split_ifs with w3
        · obtain ⟨r, er, r0, r1⟩ := upp z z2 z3
          obtain ⟨s, es, s0, s1⟩ := upp w w2 w3
          have hrs := sub_right R d hz
          rw [er, es] at hrs
          have hrs : r ≤ s := hrs
          rw [er, es]
          refine sub_left R 1 (div_right R hc ?_)
          rw [mul_fin, mul_fin]; exact R.mono _ _ (by nlinarith)
        · exact (upv z z2 z3).2
      · have w3 : ¬ w < fin d := fun g => z3 (lt_of_le_lt hz g)
        rw [if_neg z3, if_neg w3]
        exact unit_one.2

/-! ### Moderate widths in double -/

theorem nearestPos_double {x : ℝ} (h : 2 ^ (-1022 : ℤ) ≤ x) : nearestPos 53 (-1074) (2 * x) = 2 * nearestPos 53 (-1074) x := by
  have hx : 0 < x := (two_zpow_pos _).trans_le h
  have hl : Int.log 2 (2 * x) = Int.log 2 x + 1 := by
    have a : (2 : ℝ) ^ (Int.log 2 x + 1) < 2 ^ (Int.log 2 (2 * x) + 1) := by
      refine lt_of_le_of_lt ?_ lt_log
      rw [zpow_add_one₀ two_ne_zero]; linarith [log_le hx]
    have b : (2 : ℝ) ^ Int.log 2 (2 * x) < 2 ^ (Int.log 2 x + 2) := by
      refine lt_of_le_of_lt (log_le (by linarith)) ?_
      rw [show Int.log 2 x + 2 = Int.log 2 x + 1 + 1 by ring, zpow_add_one₀ two_ne_zero (Int.log 2 x + 1)]; linarith [lt_log (x := x)]
    have a := (zpow_lt_zpow_iff_right₀ (one_lt_two (α := ℝ))).1 a
    have b := (zpow_lt_zpow_iff_right₀ (one_lt_two (α := ℝ))).1 b
    omega
  have hlo : -1022 < Int.log 2 x + 1 := (zpow_lt_zpow_iff_right₀ (one_lt_two (α := ℝ))).1 (h.trans_lt lt_log)
  have hu : ulpExp 53 (-1074) (2 * x) = ulpExp 53 (-1074) x + 1 := by unfold ulpExp; rw [hl]; omega
  unfold nearestPos
  rw [hu, zpow_add_one₀ two_ne_zero, show 2 * x / (2 ^ ulpExp 53 (-1074) x * 2) = x / 2 ^ ulpExp 53 (-1074) x by field_simp]
  ring

theorem dbl_double {x y : ℝ} (h : 2 ^ (-1022 : ℤ) ≤ x) (e : doubleMachine.rnd x = fin y) (hy : y < 2 ^ (1023 : ℤ)) : doubleMachine.rnd (2 * x) = fin (2 * y) := by
  have hx : 0 < x := (two_zpow_pos _).trans_le h
  rw [dbl_rnd, ieee_nonneg hx.le] at e
  split_ifs at e with h'
  have e := (fin_inj _ _).1 e
  rw [dbl_rnd, ieee_nonneg (by linarith), nearestPos_double h, e, if_neg]
  rw [not_le, show (1024 : ℤ) = 1023 + 1 by norm_num, zpow_add_one₀ two_ne_zero]
  linarith

/-- A `double` between 2⁻⁵⁰⁰ and 2⁵⁰⁰: `2 d d` neither overflows nor underflows, and is twice `d d`. -/
theorem moderate {d : ℝ} (rd : doubleMachine.Rep d) (h0 : 2 ^ (-500 : ℤ) ≤ d) (h1 : d ≤ 2 ^ (500 : ℤ)) :
    ∃ a : ℝ, 0 < a ∧ doubleMachine.mul (fin d) (fin d) = fin a ∧ doubleMachine.mul (doubleMachine.mul 2 (fin d)) (fin d) = fin (2 * a) := by
  have R := double_sound.rounding
  have hd : 0 < d := (two_zpow_pos _).trans_le h0
  have q0 : (2 : ℝ) ^ (-1000 : ℤ) ≤ d * d := by
    rw [show (-1000 : ℤ) = -500 + -500 by norm_num, zpow_add₀ two_ne_zero]
    exact mul_le_mul h0 h0 (two_zpow_pos _).le hd.le
  have q1 : d * d ≤ (2 : ℝ) ^ (1000 : ℤ) := by
    rw [show (1000 : ℤ) = 500 + 500 by norm_num, zpow_add₀ two_ne_zero]
    exact mul_le_mul h1 h1 hd.le (two_zpow_pos _).le
  have g0 := R.mono _ _ q0
  have g1 := R.mono _ _ q1
  rw [dbl_two (by norm_num) (by norm_num)] at g0 g1
  obtain ⟨a, ea, a0, a1⟩ := between g0 g1
  refine ⟨a, (two_zpow_pos _).trans_le a0, by rw [mul_fin, ea], ?_⟩
  have e2 : doubleMachine.mul 2 (fin d) = fin (2 * d) := by
    rw [two_def, mul_fin]
    exact dbl_double ((zpow_le_zpow_right₀ one_le_two (by norm_num)).trans h0) rd (lt_of_le_of_lt h1 (zpow_lt_zpow_right₀ one_lt_two (by norm_num)))
  rw [e2, mul_fin, mul_assoc]
  exact dbl_double ((zpow_le_zpow_right₀ one_le_two (by norm_num)).trans q0) ea (lt_of_le_of_lt a1 (zpow_lt_zpow_right₀ one_lt_two (by norm_num)))

/-! ### cauchy_dist -/

/-- A fraction whose sign is that of `w` even if the denominator is 0. -/
theorem quot_nonneg (R : Rounding M.rnd) {w s : ℝ} (hw : 0 ≤ w) (hs : 0 ≤ s) (h : s = 0 → w ≠ 0) : fin 0 ≤ M.div (fin w) (fin s) := by
  rcases hs.eq_or_lt with e | e
  · have : 0 < w := lt_of_le_of_ne hw (Ne.symm (h e.symm))
    rw [Machine.div, ← e, fin_div', if_pos rfl, infSign_pos this]; trivial
  · exact recip_nonneg R hw e

theorem quot_nonpos (R : Rounding M.rnd) {w s : ℝ} (hw : w ≤ 0) (hs : 0 ≤ s) (h : s = 0 → w ≠ 0) : M.div (fin w) (fin s) ≤ fin 0 := by
  rcases hs.eq_or_lt with e | e
  · have : w < 0 := lt_of_le_of_ne hw (h e.symm)
    rw [Machine.div, ← e, fin_div', if_pos rfl, infSign_neg this]; trivial
  · exact recip_nonpos R hw e

theorem quot_up (R : Rounding M.rnd) {w s w' s' : ℝ} (hw : 0 ≤ w') (hww : w' ≤ w) (hs : 0 ≤ s) (hss : s ≤ s') (h : s = 0 → w ≠ 0)
    (h' : s' = 0 → w' ≠ 0) : M.div (fin w') (fin s') ≤ M.div (fin w) (fin s) := by
  rcases hs.eq_or_lt with e | e
  · have : 0 < w := lt_of_le_of_ne (hw.trans hww) (Ne.symm (h e.symm))
    have k := le_pinf (quot_nonneg R hw (hs.trans hss) h')
    rw [Machine.div, Machine.div, ← e, fin_div' w, if_pos rfl, infSign_pos this]
    exact k
  · rw [Machine.div_fin _ (by linarith), Machine.div_fin _ e.ne']
    exact R.mono _ _ (div_le_div₀ (hw.trans hww) hww e hss)

theorem quot_down (R : Rounding M.rnd) {w s w' s' : ℝ} (hw : w ≤ 0) (hww : w' ≤ w) (hs : 0 ≤ s') (hss : s' ≤ s) (h : s = 0 → w ≠ 0)
    (h' : s' = 0 → w' ≠ 0) : M.div (fin w') (fin s') ≤ M.div (fin w) (fin s) := by
  rcases hs.eq_or_lt with e | e
  · have : w' < 0 := lt_of_le_of_ne (hww.trans hw) (h' e.symm)
    have k := ninf_le (quot_nonpos R hw (hs.trans hss) h)
    rw [Machine.div, ← e, fin_div' w', if_pos rfl, infSign_neg this]
    exact k
  · rw [Machine.div_fin _ e.ne', Machine.div_fin _ (by linarith)]
    refine R.mono _ _ ?_
    have := div_le_div₀ (by linarith : 0 ≤ -w') (neg_le_neg hww) e hss
    rw [neg_div, neg_div] at this
    linarith

theorem cauchy_mono (S : Sound M) {p pi theta eta : ℝ} (T : TrigMono M p) (hp : 0 < pi) (rp : M.Rep pi) (ht : 0 < theta) (rt : M.Rep theta)
    {x y : ℝ} (h0 : 0 ≤ x) (hxy : x ≤ y) (h1 : y ≤ 1) (hy : M.mul (fin y) (fin pi) ≤ fin p) :
    cauchyIcdf M pi (fin theta) (fin eta) (fin x) ≤ cauchyIcdf M pi (fin theta) (fin eta) (fin y) := by
  have L := S.library
  have R := S.rounding
  obtain ⟨b, eb, b0, b1⟩ : ∃ t : ℝ, M.mul (fin y) (fin pi) = fin t ∧ 0 ≤ t ∧ t ≤ p := by
    refine between ?_ hy
    rw [mul_fin, ← R.zero]; exact R.mono _ _ (mul_nonneg (h0.trans hxy) hp.le)
  obtain ⟨a, ea, a0, ab⟩ : ∃ t : ℝ, M.mul (fin x) (fin pi) = fin t ∧ 0 ≤ t ∧ t ≤ b := by
    refine between ?_ ?_
    · rw [mul_fin, ← R.zero]; exact R.mono _ _ (by positivity)
    · rw [← eb]; exact mul_right R hp ((fin_le _ _).2 hxy)
  have one : ∀ t : ℝ, 0 ≤ t → t ≤ p → ∃ s c w : ℝ, M.sin (fin t) = fin s ∧ M.cos (fin t) = fin c ∧ M.mul (fin theta) (fin c) = fin w ∧
      0 ≤ s ∧ (s = 0 → w ≠ 0) ∧ (0 ≤ c → 0 ≤ w) ∧ (c ≤ 0 → w ≤ 0) := by
    intro t t0 t1
    obtain ⟨s, c, hs, hc, h2, h3⟩ := L.trig t
    obtain ⟨c1, c2⟩ := abs_le.1 h2
    obtain ⟨w, e', -, -⟩ : ∃ w : ℝ, M.mul (fin theta) (fin c) = fin w ∧ -theta ≤ w ∧ w ≤ theta := by
      refine between ?_ ?_
      · rw [mul_fin, ← R.neg theta rt]; exact R.mono _ _ (by nlinarith)
      · rw [mul_fin, ← show M.rnd theta = fin theta from rt]; exact R.mono _ _ (by nlinarith)
    have hs0 := T.sin_sign t t0 t1
    rw [hs] at hs0
    refine ⟨s, c, w, hs, hc, e', (fin_le _ _).1 hs0, ?_, fun hc0 => ?_, fun hc0 => ?_⟩
    · rintro hs0 rfl
      rcases (abs_eq zero_le_one).1 (h3 hs0) with h | h
      · rw [mul_fin, h, mul_one, show M.rnd theta = fin theta from rt] at e'
        have : theta = 0 := by injection e'
        exact ht.ne' this
      · rw [mul_fin, h, show theta * -1 = -theta by ring, R.neg theta rt] at e'
        have : -theta = 0 := by injection e'
        linarith
    · have := R.mono 0 (theta * c) (by positivity)
      rw [R.zero, ← mul_fin, e'] at this; exact (fin_le _ _).1 this
    · have := R.mono (theta * c) 0 (mul_nonpos_of_nonneg_of_nonpos ht.le hc0)
      rw [R.zero, ← mul_fin, e'] at this; exact (fin_le _ _).1 this
  obtain ⟨s, c, w, es, ec, ew, hs, hz, hp1, hn1⟩ := one a a0 (ab.trans b1)
  obtain ⟨s', c', w', es', ec', ew', hs', hz', hp2, hn2⟩ := one b b0 b1
  have key : M.div (fin w') (fin s') ≤ M.div (fin w) (fin s) := by
    have hc := T.cos_down a b a0 ab b1
    rw [ec, ec'] at hc
    have hww : w' ≤ w := by
      have := mul_left R ht hc
      rw [ew, ew'] at this; exact (fin_le _ _).1 this
    rcases le_total b (Real.pi / 2) with h | h
    · have hc' := T.cos_pos b b0 h
      have hss := T.sin_up a b a0 ab h
      rw [ec'] at hc'; rw [es, es'] at hss
      exact quot_up R (hp2 ((fin_le _ _).1 hc')) hww hs ((fin_le _ _).1 hss) hz hz'
    · have hc' := T.cos_neg b h b1
      rw [ec'] at hc'
      rcases le_total a (Real.pi / 2) with g | g
      · have hc := T.cos_pos a a0 g
        rw [ec] at hc
        exact le_trans' (quot_nonpos R (hn2 ((fin_le _ _).1 hc')) hs' hz') (quot_nonneg R (hp1 ((fin_le _ _).1 hc)) hs hz)
      · have hc := T.cos_neg a g (ab.trans b1)
        have hss := T.sin_down a b g ab b1
        rw [ec] at hc; rw [es, es'] at hss
        exact quot_down R (hn1 ((fin_le _ _).1 hc)) hww hs' ((fin_le _ _).1 hss) hz hz'
  simp only [cauchyIcdf, ea, eb, es, ec, es', ec', ew, ew']
  exact sub_left R eta key

/-- A correctly rounded library has this, up to `p ≤ π`. -/
theorem trig_rounded {r : ℝ → XR} (R : Rounding r) {p : ℝ} (hp : p ≤ Real.pi) : TrigMono (.rounded r) p where
  sin_up x y h0 h h1 := R.mono _ _ (Real.sin_le_sin_of_le_of_le_pi_div_two (by linarith [Real.pi_pos]) h1 h)
  sin_down x y h0 h h1 := R.mono _ _ (by
    rw [← Real.sin_pi_sub y, ← Real.sin_pi_sub x]
    exact Real.sin_le_sin_of_le_of_le_pi_div_two (by linarith [Real.pi_pos]) (by linarith) (by linarith))
  sin_sign x h0 h1 := by rw [← R.zero]; exact R.mono _ _ (Real.sin_nonneg_of_nonneg_of_le_pi h0 (by linarith))
  cos_down x y h0 h h1 := R.mono _ _ (Real.cos_le_cos_of_nonneg_of_le_pi h0 (by linarith) h)
  cos_pos x h0 h1 := by rw [← R.zero]; exact R.mono _ _ (Real.cos_nonneg_of_neg_pi_div_two_le_of_le (by linarith [Real.pi_pos]) h1)
  cos_neg x h0 h1 := by rw [← R.zero]; exact R.mono _ _ (Real.cos_nonpos_of_pi_div_two_le_of_le h0 (by linarith))

end Rounded
end Trng
