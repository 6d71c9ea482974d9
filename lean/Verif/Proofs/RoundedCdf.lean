import Verif.Proofs.Rounded

/-! The distribution functions of Model/Rounded.lean. -/
namespace Trng
open XR Spec Machine
open Classical

namespace Rounded
variable {M : Machine}

theorem value_self {x : XR} (h : Value M x) : x ≤ x := by
  rcases h with rfl | rfl | ⟨r, rfl, -⟩
  · trivial
  · trivial
  · exact (fin_le _ _).2 (le_refl _)
theorem le_or_ge {x : XR} (h : x ≤ x) (r : ℝ) : x ≤ fin r ∨ fin r ≤ x := by
  cases x with
  | nan => exact absurd h id
  | ninf => exact Or.inl trivial
  | pinf => exact Or.inr trivial
  | fin x => exact (le_total x r)
theorem not_le_ge {x : XR} (h : x ≤ x) {r : ℝ} (hr : ¬ x ≤ fin r) : fin r ≤ x := (le_or_ge h r).resolve_left hr
theorem not_lt_ge {x : XR} (h : x ≤ x) {r : ℝ} (hr : ¬ x < fin r) : fin r ≤ x := by
  cases x with
  | nan => exact absurd h id
  | ninf => exact absurd trivial hr
  | pinf => trivial
  | fin x => exact not_lt (α := ℝ) |>.1 hr
theorem not_lt_le {x : XR} (h : x ≤ x) {r : ℝ} (hr : ¬ fin r < x) : x ≤ fin r := by
  cases x with
  | nan => exact absurd h id
  | ninf => trivial
  | pinf => exact absurd trivial hr
  | fin x => exact not_lt (α := ℝ) |>.1 hr
theorem lt_le {x y : XR} (h : x < y) : x ≤ y := by
  cases x <;> cases y <;> first | exact absurd h id | trivial | exact le_of_lt (α := ℝ) h

/-- A probability. -/
def Unit (a : XR) : Prop := fin 0 ≤ a ∧ a ≤ fin 1

theorem unit_zero : Unit (fin 0) := ⟨(fin_le _ _).2 (le_refl _), (fin_le _ _).2 zero_le_one⟩
theorem unit_one : Unit (fin 1) := ⟨(fin_le _ _).2 zero_le_one, (fin_le _ _).2 (le_refl _)⟩

theorem exp_unit (L : Library M) {a : XR} (h : a ≤ fin 0) : Unit (M.exp a) :=
  ⟨by rw [← L.exp_ninf]; exact L.exp_mono _ _ (ninf_le h), by rw [← L.exp_zero]; exact L.exp_mono _ _ h⟩

theorem one_sub_unit (R : Rounding M.rnd) {a : XR} (h : Unit a) : Unit (M.sub 1 a) := by
  have c := sub_left R 1 h.1
  have d := sub_left R 1 h.2
  rw [sub_fin, sub_zero, R.one] at c
  rw [sub_fin, sub_self, R.zero] at d
  rw [one_def]
  exact ⟨d, c⟩

theorem half_bounds (R : Rounding M.rnd) {a : XR} (h : Unit a) : fin 0 ≤ M.div a 2 ∧ M.div a 2 ≤ fin (1 / 2) := by
  have c := div_right R two_pos h.1
  have d := div_right R two_pos h.2
  rw [div_fin _ two_ne_zero, zero_div, R.zero] at c
  rw [div_fin _ two_ne_zero, R.half] at d
  rw [two_def]
  exact ⟨c, d⟩

theorem div_nonpos (R : Rounding M.rnd) {m : ℝ} (hm : 0 < m) {a : XR} (h : a ≤ fin 0) : M.div a (fin m) ≤ fin 0 := by
  have := div_right R hm h
  rwa [div_fin _ hm.ne', zero_div, R.zero] at this
theorem div_nonneg' (R : Rounding M.rnd) {m : ℝ} (hm : 0 < m) {a : XR} (h : fin 0 ≤ a) : fin 0 ≤ M.div a (fin m) := by
  have := div_right R hm h
  rwa [div_fin _ hm.ne', zero_div, R.zero] at this
theorem neg_nonpos {a : XR} (h : fin 0 ≤ a) : -a ≤ fin 0 := by
  have := neg_le h; rwa [neg_fin, neg_zero] at this

/-- A distribution function that is 0 up to 0. -/
theorem clipped {F g : XR → XR} (e : ∀ x, F x = if x ≤ 0 then 0 else g x) (hu : ∀ x, fin 0 ≤ x → Unit (g x))
    (hm : ∀ x y, fin 0 ≤ x → x ≤ y → g x ≤ g y) : CdfInRange M F ∧ CdfIncreases M F := by
  have z : ∀ x : XR, x ≤ (0 : XR) ↔ x ≤ fin 0 := fun x => by rw [zero_def]
  constructor
  · intro x hx
    rw [e x, zero_def, one_def]
    split_ifs with h
    · exact unit_zero
    · exact hu x (not_le_ge (value_self hx) h)
  · intro x y hx hy h
    rw [e x, e y, zero_def]
    split_ifs with h1 h2 h2
    · exact unit_zero.1
    · exact (hu y (not_le_ge (value_self hy) h2)).1
    · exact absurd (le_trans' h h2) h1
    · exact hm x y (not_le_ge (value_self hx) h1) h

theorem exponential_cdf (S : Sound M) {mu : ℝ} (hm : 0 < mu) :
    CdfInRange M (exponential M (fin mu)).cdf ∧ CdfIncreases M (exponential M (fin mu)).cdf := by
  have L := S.library
  have R := S.rounding
  refine clipped (g := fun x => M.sub 1 (M.exp (M.div (-x) (fin mu)))) (fun x => rfl)
    (fun x h => one_sub_unit R (exp_unit L (div_nonpos R hm (neg_nonpos h)))) (fun x y h0 h => ?_)
  simp only [one_def]
  exact sub_left R 1 (L.exp_mono _ _ (div_right R hm (neg_le h)))

theorem twosided_cdf (S : Sound M) {mu : ℝ} (hm : 0 < mu) :
    CdfInRange M (twosidedExponential M (fin mu)).cdf ∧ CdfIncreases M (twosidedExponential M (fin mu)).cdf := by
  have L := S.library
  have R := S.rounding
  have e : ∀ x, (twosidedExponential M (fin mu)).cdf x =
      if x ≤ fin 0 then M.div (M.exp (M.div x (fin mu))) (fin 2) else M.sub (fin 1) (M.div (M.exp (M.div (-x) (fin mu))) (fin 2)) := by
    intro x; simp only [twosidedExponential, zero_def, one_def, two_def]
  have lo : ∀ x, x ≤ fin 0 → fin 0 ≤ (twosidedExponential M (fin mu)).cdf x ∧ (twosidedExponential M (fin mu)).cdf x ≤ fin (1 / 2) := by
    intro x h
    rw [e, if_pos h, ← two_def]
    exact half_bounds R (exp_unit L (div_nonpos R hm h))
  have hi : ∀ x, fin 0 ≤ x → ¬ x ≤ fin 0 → fin (1 / 2) ≤ (twosidedExponential M (fin mu)).cdf x ∧ (twosidedExponential M (fin mu)).cdf x ≤ fin 1 := by
    intro x h h'
    rw [e, if_neg h']
    obtain ⟨a, b⟩ := half_bounds R (exp_unit L (div_nonpos R hm (neg_nonpos h)))
    have c := sub_left R 1 a
    have d := sub_left R 1 b
    rw [sub_fin, sub_zero, R.one, two_def] at c
    rw [sub_fin, show (1 : ℝ) - 1 / 2 = 1 / 2 by norm_num, R.half, two_def] at d
    exact ⟨d, c⟩
  have hh : fin (1 / 2) ≤ fin 1 := (fin_le _ _).2 (by norm_num)
  have h0 : fin 0 ≤ fin (1 / 2) := (fin_le _ _).2 (by norm_num)
  constructor
  · intro x hx
    rw [zero_def, one_def]
    by_cases h : x ≤ fin 0
    · exact ⟨(lo x h).1, le_trans' (lo x h).2 hh⟩
    · have := hi x (not_le_ge (value_self hx) h) h
      exact ⟨le_trans' h0 this.1, this.2⟩
  · intro x y hx hy h
    by_cases h1 : x ≤ fin 0
    · by_cases h2 : y ≤ fin 0
      · rw [e, e, if_pos h1, if_pos h2]
        exact div_right R two_pos (L.exp_mono _ _ (div_right R hm h))
      · exact le_trans' (lo x h1).2 (hi y (not_le_ge (value_self hy) h2) h2).1
    · have h2 : ¬ y ≤ fin 0 := fun h2 => h1 (le_trans' h h2)
      rw [e, e, if_neg h1, if_neg h2]
      exact sub_left R 1 (div_right R two_pos (L.exp_mono _ _ (div_right R hm (neg_le h))))

theorem pow_le_one (L : Library M) {x e : XR} (he : e ≤ fin 0) (h1 : fin 1 ≤ x) : Unit (M.pow x e) :=
  ⟨L.pow_nonneg x e (Or.inr he) (le_trans' ((fin_le _ _).2 zero_le_one) h1), by
    rw [← L.pow_one e (Or.inr he)]; exact L.pow_anti _ _ _ he ((fin_le _ _).2 zero_le_one) h1⟩

theorem pareto_cdf (S : Sound M) {gamma theta : ℝ} (hg : 0 < gamma) (ht : 0 < theta) :
    CdfInRange M (pareto M (fin gamma) (fin theta)).cdf ∧ CdfIncreases M (pareto M (fin gamma) (fin theta)).cdf := by
  have L := S.library
  have R := S.rounding
  have he : -fin gamma ≤ fin 0 := by rw [neg_fin]; exact (fin_le _ _).2 (by linarith)
  have hb : ∀ x, fin 0 ≤ x → fin 1 ≤ M.add (fin 1) (M.div x (fin theta)) := by
    intro x h
    have := add_left R 1 (div_nonneg' R ht h)
    rwa [add_fin, add_zero, R.one] at this
  refine clipped (g := fun x => M.sub (fin 1) (M.pow (M.add (fin 1) (M.div x (fin theta))) (-fin gamma)))
    (fun x => by simp only [pareto, one_def]) (fun x h => ?_) (fun x y h0 h => ?_)
  · rw [← one_def]; rw [← one_def] at hb
    exact one_sub_unit R (pow_le_one L he (by rw [one_def]; rw [one_def] at hb; exact hb x h))
  · exact sub_left R 1 (L.pow_anti _ _ _ he (le_trans' ((fin_le _ _).2 zero_le_one) (hb x h0)) (add_left R 1 (div_right R ht h)))

/-- powerlaw_dist on its support. -/
theorem powerlaw_cdf' (S : Sound M) {gamma theta : ℝ} (hg : 0 < gamma) (ht : 0 < theta) :
    (∀ x, fin theta ≤ x → Unit ((powerlaw M (fin gamma) (fin theta)).cdf x)) ∧
    (∀ x y, fin theta ≤ x → x ≤ y → (powerlaw M (fin gamma) (fin theta)).cdf x ≤ (powerlaw M (fin gamma) (fin theta)).cdf y) := by
  have L := S.library
  have R := S.rounding
  have he : -fin gamma ≤ fin 0 := by rw [neg_fin]; exact (fin_le _ _).2 (by linarith)
  have hb : ∀ x, fin theta ≤ x → fin 1 ≤ M.div x (fin theta) := by
    intro x h
    have := div_right R ht h
    rwa [div_fin _ ht.ne', div_self ht.ne', R.one] at this
  have e : ∀ x, fin theta ≤ x → (powerlaw M (fin gamma) (fin theta)).cdf x = M.sub (fin 1) (M.pow (M.div x (fin theta)) (-fin gamma)) := by
    intro x h
    simp only [powerlaw, one_def]
    rw [if_neg]
    rw [zero_def]
    intro h'
    exact absurd ((fin_le _ _).1 (le_trans' h h')) (not_le.2 ht)
  constructor
  · intro x h
    rw [e x h, ← one_def]
    exact one_sub_unit R (pow_le_one L he (hb x h))
  · intro x y h h'
    rw [e x h, e y (le_trans' h h')]
    exact sub_left R 1 (L.pow_anti _ _ _ he (le_trans' ((fin_le _ _).2 zero_le_one) (hb x h)) (div_right R ht h'))

theorem weibull_cdf (S : Sound M) {theta beta : ℝ} (ht : 0 < theta) (hb : 0 < beta) :
    CdfInRange M (weibull M (fin theta) (fin beta)).cdf ∧ CdfIncreases M (weibull M (fin theta) (fin beta)).cdf := by
  have L := S.library
  have R := S.rounding
  have he : fin 0 ≤ fin beta := (fin_le _ _).2 hb.le
  set g : XR → XR := fun x => -M.expm1 (-M.pow x (fin beta)) with hg
  have gu : ∀ x, fin 0 ≤ x → Unit (g x) := by
    intro x h
    have p := neg_nonpos (L.pow_nonneg x (fin beta) (Or.inl he) h)
    have a := L.expm1_mono _ _ p
    have b := L.expm1_mono _ _ (ninf_le p)
    rw [L.expm1_zero] at a
    rw [L.expm1_ninf] at b
    refine ⟨neg_nonneg a, ?_⟩
    have := neg_le b
    rwa [neg_fin, neg_neg] at this
  have gm : ∀ x y, fin 0 ≤ x → x ≤ y → g x ≤ g y := fun x y h0 h =>
    neg_le (L.expm1_mono _ _ (neg_le (L.pow_mono _ _ _ he h0 h)))
  have e : ∀ x, (weibull M (fin theta) (fin beta)).cdf x = if M.div x (fin theta) ≤ fin 0 then fin 0 else g (M.div x (fin theta)) := by
    intro x; simp only [weibull, zero_def, hg]
  constructor
  · intro x hx
    rw [e x, zero_def, one_def]
    split_ifs with h
    · exact unit_zero
    · exact gu _ (not_le_ge (le_self (div_right R ht (value_self hx))) h)
  · intro x y hx hy h
    have q := div_right R ht h
    rw [e x, e y]
    split_ifs with h1 h2 h2
    · exact unit_zero.1
    · exact (gu _ (not_le_ge (le_self' q) h2)).1
    · exact absurd (le_trans' q h2) h1
    · exact gm _ _ (not_le_ge (le_self q) h1) q

/-- The standardized argument `(x - η)/θ`. -/
theorem std_mono (R : Rounding M.rnd) {theta eta : ℝ} (ht : 0 < theta) {x y : XR} (h : x ≤ y) :
    M.div (M.sub x (fin eta)) (fin theta) ≤ M.div (M.sub y (fin eta)) (fin theta) := div_right R ht (sub_right R eta h)

theorem extreme_cdf (S : Sound M) {theta eta : ℝ} (ht : 0 < theta) :
    CdfInRange M (extremeValue M (fin theta) (fin eta)).cdf ∧ CdfIncreases M (extremeValue M (fin theta) (fin eta)).cdf := by
  have L := S.library
  have R := S.rounding
  have en : ∀ a : XR, a ≤ a → fin 0 ≤ M.exp a := fun a h => by rw [← L.exp_ninf]; exact L.exp_mono _ _ (ninf_le h)
  constructor
  · intro x hx
    rw [zero_def]
    simp only [extremeValue]
    have := one_sub_unit R (exp_unit L (neg_nonpos (en _ (std_mono (eta := eta) R ht (value_self hx)))))
    rw [one_def] at this ⊢
    exact this
  · intro x y hx hy h
    simp only [extremeValue, one_def]
    exact sub_left R 1 (L.exp_mono _ _ (neg_le (L.exp_mono _ _ (std_mono R ht h))))

theorem abs_nonneg' {a : XR} (h : a ≤ a) : fin 0 ≤ XR.abs a := by
  cases a with
  | nan => exact absurd h id
  | ninf => trivial
  | pinf => trivial
  | fin x => exact (fin_le _ _).2 (_root_.abs_nonneg x)

theorem logistic_cdf (S : Sound M) {theta eta : ℝ} (ht : 0 < theta) : CdfInRange M (logistic M (fin theta) (fin eta)).cdf := by
  have L := S.library
  have R := S.rounding
  intro x hx
  have hu := exp_unit L (neg_nonpos (abs_nonneg' (std_mono (eta := eta) R ht (value_self hx))))
  rw [zero_def, one_def]
  simp only [logistic, one_def]
  obtain ⟨t, et, h0, h1⟩ := between hu.1 hu.2
  rw [et]
  obtain ⟨w, ew, h2, -⟩ : ∃ w : ℝ, M.add (fin 1) (fin t) = fin w ∧ 1 ≤ w ∧ w ≤ 2 := by
    refine between ?_ ?_
    · rw [add_fin, ← R.one]; exact R.mono _ _ (by linarith)
    · rw [add_fin, ← R.two]; exact R.mono _ _ (by linarith)
  rw [ew]
  have hw : 0 < w := by linarith
  have key : ∀ s : ℝ, 0 ≤ s → s ≤ 1 → Unit (M.div (fin s) (fin w)) := by
    intro s hs hs1
    refine ⟨recip_nonneg R hs hw, ?_⟩
    rw [div_fin _ hw.ne', ← R.one]
    exact R.mono _ _ (by rw [div_le_one hw]; linarith)
  split_ifs
  · exact key 1 zero_le_one (le_refl _)
  · exact key t h0 h1

theorem cauchy_cdf (S : Sound M) {pi c theta eta : ℝ} (hc : 0 < c) (ht : 0 < theta)
    (h0 : fin (-(1 / 2)) ≤ M.mul (fin c) (M.atan ninf)) (h1 : M.mul (fin c) (M.atan pinf) ≤ fin (1 / 2)) :
    CdfInRange M (cauchy M pi c (fin theta) (fin eta)).cdf ∧ CdfIncreases M (cauchy M pi c (fin theta) (fin eta)).cdf := by
  have L := S.library
  have R := S.rounding
  have am : ∀ a b : XR, a ≤ b → M.add (M.mul (fin c) (M.atan a)) (fin (1 / 2)) ≤ M.add (M.mul (fin c) (M.atan b)) (fin (1 / 2)) :=
    fun a b h => add_right R _ (mul_left R hc (L.atan_mono _ _ h))
  have lo := add_right R (1 / 2) h0
  have hi := add_right R (1 / 2) h1
  rw [add_fin, show -(1 / 2 : ℝ) + 1 / 2 = 0 by norm_num, R.zero] at lo
  rw [add_fin, show (1 / 2 : ℝ) + 1 / 2 = 1 by norm_num, R.one] at hi
  constructor
  · intro x hx
    have q := std_mono (eta := eta) R ht (value_self hx)
    rw [zero_def, one_def]
    simp only [cauchy, half_def R]
    exact ⟨le_trans' lo (am _ _ (ninf_le q)), le_trans' (am _ _ (le_pinf q)) hi⟩
  · intro x y hx hy h
    simp only [cauchy, half_def R]
    exact am _ _ (std_mono R ht h)

theorem neg_sq_anti {x y : XR} (h0 : fin 0 ≤ x) (h : x ≤ y) (hx : ¬ x ≤ fin 0) : -y * y ≤ -x * x := by
  cases x with
  | nan => exact absurd h0 id
  | ninf => exact absurd h0 id
  | pinf => cases y <;> first | exact absurd h id | exact trivial
  | fin x =>
    cases y with
    | nan => exact absurd h id
    | ninf => exact absurd h id
    | pinf => trivial
    | fin y =>
      rw [neg_fin, neg_fin, fin_mul, fin_mul, fin_le]
      have h0 : 0 ≤ x := h0
      have h : x ≤ y := h
      nlinarith

theorem neg_sq_nonpos {x : XR} (h0 : fin 0 ≤ x) : -x * x ≤ fin 0 := by
  cases x with
  | nan => exact absurd h0 id
  | ninf => exact absurd h0 id
  | pinf => trivial
  | fin x => rw [neg_fin, fin_mul, fin_le]; nlinarith [mul_self_nonneg x]

theorem rayleigh_cdf (S : Sound M) {nu c : ℝ} (hc : 0 < c) (e : M.mul (M.mul 2 (fin nu)) (fin nu) = fin c) :
    CdfInRange M (rayleigh M (fin nu)).cdf ∧ CdfIncreases M (rayleigh M (fin nu)).cdf := by
  have L := S.library
  have R := S.rounding
  have nonpos : ∀ x, fin 0 ≤ x → M.mul (-x) x ≤ fin 0 := by
    intro x h
    have := round_mono (M := M) R (neg_sq_nonpos h)
    rwa [round_fin, R.zero] at this
  have anti : ∀ x y, fin 0 ≤ x → x ≤ y → M.mul (-y) y ≤ M.mul (-x) x := by
    intro x y h0 h
    by_cases hx : x ≤ fin 0
    · have : x = fin 0 := by
        obtain ⟨r, e, a, b⟩ := between h0 hx
        rw [e, le_antisymm b a]
      subst this
      have := nonpos y h
      rwa [show M.mul (-fin 0) (fin 0) = fin 0 by rw [neg_fin, mul_fin, mul_zero, R.zero]]
    · exact round_mono R (neg_sq_anti h0 h hx)
  refine clipped (g := fun x => M.sub 1 (M.exp (M.div (M.mul (-x) x) (fin c)))) (fun x => by simp only [rayleigh, e])
    (fun x h => one_sub_unit R (exp_unit L (div_nonpos R hc (nonpos x h)))) (fun x y h0 h => ?_)
  simp only [one_def]
  exact sub_left R 1 (L.exp_mono _ _ (div_right R hc (anti x y h0 h)))

theorem tent_cdf (S : Sound M) {m d c : ℝ} (hd : 0 < d) (rd : M.Rep d) (hc : 0 < c) (e : M.mul (M.mul 2 (fin d)) (fin d) = fin c) :
    CdfInRange M (tent M (fin m) (fin d)).cdf := by
  have R := S.rounding
  have hsq : M.mul (fin d) (fin d) ≤ fin c := by
    rw [← e]
    refine mul_right R hd ?_
    have : M.Rep d := rd
    rw [two_def, mul_fin, ← show M.rnd d = fin d from rd]
    exact R.mono _ _ (by linarith)
  have key : ∀ w : XR, fin (-d) ≤ w → w ≤ fin d → Unit (M.div (M.mul w w) (fin c)) := by
    intro w h0 h1
    obtain ⟨r, rfl, a, b⟩ := between h0 h1
    have q1 : fin 0 ≤ M.mul (fin r) (fin r) := by rw [mul_fin, ← R.zero]; exact R.mono _ _ (mul_self_nonneg r)
    have q2 : M.mul (fin r) (fin r) ≤ fin c := le_trans' (by rw [mul_fin, mul_fin]; exact R.mono _ _ (by nlinarith)) hsq
    refine ⟨div_nonneg' R hc q1, ?_⟩
    have := div_right R hc q2
    rwa [div_fin _ hc.ne', div_self hc.ne', R.one] at this
  intro x hx
  rw [zero_def, one_def]
  have hz : M.sub x (fin m) ≤ M.sub x (fin m) := sub_right R m (value_self hx)
  simp only [tent]
  set z := M.sub x (fin m)
  rw [zero_def, one_def, e]
  split_ifs with h1 h2 h3
  · exact unit_zero
  · rw [neg_fin] at h1
    refine key _ ?_ ?_
    · have := add_right R d (not_le_ge hz h1)
      rw [add_fin, neg_add_cancel, R.zero] at this
      exact le_trans' ((fin_le _ _).2 (by linarith)) this
    · have := add_right R d h2
      rwa [add_fin, zero_add, show M.rnd d = fin d from rd] at this
  · have := one_sub_unit R (key (M.sub z (fin d)) ?_ ?_)
    · rw [one_def] at this; exact this
    · have := sub_right R d (not_le_ge hz h2)
      rwa [sub_fin, zero_sub, R.neg d rd] at this
    · have := sub_right R d (lt_le h3)
      rw [sub_fin, sub_self, R.zero] at this
      exact le_trans' this ((fin_le _ _).2 hd.le)
  · exact unit_one

theorem erfc_bounds (L : Library M) {a : XR} (h : a ≤ a) : fin 0 ≤ M.erfc a ∧ M.erfc a ≤ fin 2 :=
  ⟨by rw [← L.erfc_ends.2]; exact L.erfc_anti _ _ (le_pinf h), by rw [← L.erfc_ends.1]; exact L.erfc_anti _ _ (ninf_le h)⟩

theorem half_mul_unit (R : Rounding M.rnd) {a : XR} (h0 : fin 0 ≤ a) (h1 : a ≤ fin 2) : Unit (M.mul (fin (1 / 2)) a) := by
  have c := mul_left R (show (0 : ℝ) < 1 / 2 by norm_num) h0
  have d := mul_left R (show (0 : ℝ) < 1 / 2 by norm_num) h1
  rw [mul_fin, mul_zero, R.zero] at c
  rw [mul_fin, show (1 / 2 : ℝ) * 2 = 1 by norm_num, R.one] at d
  exact ⟨c, d⟩

theorem Phi_unit (S : Sound M) {c q : ℝ} (hc : 0 < c) {x : XR} (hx : x ≤ x) : Unit (Phi M c q x) := by
  have L := S.library
  have R := S.rounding
  have hy : M.mul x (fin c) ≤ M.mul x (fin c) := mul_right R hc hx
  simp only [Phi]
  set y := M.mul x (fin c)
  split_ifs
  · exact half_mul_unit R (erfc_bounds L (neg_le hy)).1 (erfc_bounds L (neg_le hy)).2
  · exact one_sub_unit R (half_mul_unit R (erfc_bounds L hy).1 (erfc_bounds L hy).2)
  · have a : fin (-1) ≤ M.erf y := by rw [← L.erf_ends.1]; exact L.erf_mono _ _ (ninf_le hy)
    have b : M.erf y ≤ fin 1 := by rw [← L.erf_ends.2]; exact L.erf_mono _ _ (le_pinf hy)
    have c := add_left R (1 / 2) (mul_left R (show (0 : ℝ) < 1 / 2 by norm_num) a)
    have d := add_left R (1 / 2) (mul_left R (show (0 : ℝ) < 1 / 2 by norm_num) b)
    rw [mul_fin, show (1 / 2 : ℝ) * -1 = -(1 / 2) by norm_num, R.neg _ R.half, add_fin, add_neg_cancel, R.zero] at c
    rw [mul_fin, mul_one, R.half, add_fin, show (1 / 2 : ℝ) + 1 / 2 = 1 by norm_num, R.one] at d
    exact ⟨c, d⟩

theorem normal_cdf (S : Sound M) {c q mu sigma : ℝ} (hc : 0 < c) (hs : 0 < sigma) :
    CdfInRange M (normalCdf M c q (fin mu) (fin sigma)) := by
  intro x hx
  rw [zero_def, one_def]
  exact Phi_unit S hc (std_mono S.rounding hs (value_self hx))

theorem lognormal_cdf (S : Sound M) {c mu sigma : ℝ} (hc : 0 < c) (hs : 0 < sigma) :
    CdfInRange M (lognormalCdf M c (fin mu) (fin sigma)) ∧ CdfIncreases M (lognormalCdf M c (fin mu) (fin sigma)) := by
  have L := S.library
  have R := S.rounding
  have anti : ∀ x y, fin 0 ≤ x → x ≤ y → M.div (M.mul (fin c) (M.sub (fin mu) (M.ln y))) (fin sigma) ≤
      M.div (M.mul (fin c) (M.sub (fin mu) (M.ln x))) (fin sigma) :=
    fun x y h0 h => div_right R hs (mul_left R hc (sub_left R mu (L.ln_mono _ _ h0 h)))
  refine clipped (g := fun x => M.div (M.erfc (M.div (M.mul (fin c) (M.sub (fin mu) (M.ln x))) (fin sigma))) (fin 2))
    (fun x => by simp only [lognormalCdf, two_def]) (fun x h => ?_) (fun x y h0 h => div_right R two_pos (L.erfc_anti _ _ (anti x y h0 h)))
  obtain ⟨a, b⟩ := erfc_bounds L (anti x x h (le_self' h))
  have a := div_right R two_pos a
  have b := div_right R two_pos b
  rw [div_fin _ two_ne_zero, zero_div, R.zero] at a
  rw [div_fin _ two_ne_zero, div_self two_ne_zero, R.one] at b
  exact ⟨a, b⟩

/-! ### Densities -/

theorem nonneg_div (R : Rounding M.rnd) {a b : XR} {t : ℝ} (ht : 0 < t) (ha : Unit a) (hb : fin t ≤ b) : fin 0 ≤ M.div a b := by
  obtain ⟨r, rfl, h0, -⟩ := between ha.1 ha.2
  cases b with
  | nan => exact absurd hb id
  | ninf => exact absurd hb id
  | pinf =>
    show fin 0 ≤ M.round (fin 0)
    rw [round_fin, R.zero]; exact unit_zero.1
  | fin b =>
    have hb : t ≤ b := hb
    exact recip_nonneg R h0 (by linarith)

theorem exponential_pdf (S : Sound M) {mu : ℝ} (hm : 0 < mu) : PdfNonneg M (exponential M (fin mu)).pdf := by
  intro x hx
  simp only [exponential, zero_def]
  split_ifs with h
  · exact unit_zero.1
  · exact div_nonneg' S.rounding hm (exp_unit S.library (div_nonpos S.rounding hm (neg_nonpos (not_lt_ge (value_self hx) h)))).1

theorem twosided_pdf (S : Sound M) {mu : ℝ} (hm : 0 < mu) (rm : M.Rep mu) : PdfNonneg M (twosidedExponential M (fin mu)).pdf := by
  have R := S.rounding
  intro x hx
  simp only [twosidedExponential]
  rw [zero_def]
  refine nonneg_div R hm (exp_unit S.library (div_nonpos R hm (neg_nonpos (abs_nonneg' (value_self hx))))) ?_
  rw [two_def, mul_fin, ← show M.rnd mu = fin mu from rm]
  exact R.mono _ _ (by linarith)

theorem tent_pdf (S : Sound M) {m d : ℝ} (hd : 0 < d) : PdfNonneg M (tent M (fin m) (fin d)).pdf := by
  have R := S.rounding
  intro x hx
  have hz : M.sub x (fin m) ≤ M.sub x (fin m) := sub_right R m (value_self hx)
  simp only [tent]
  set z := M.sub x (fin m)
  rw [zero_def, one_def]
  split_ifs with h1 h2
  · exact unit_zero.1
  · refine div_nonneg' R hd ?_
    have a : fin (-d) ≤ z := not_le_ge hz fun h => h1 (Or.inl (by rw [neg_fin]; exact h))
    have b := div_right R hd a
    rw [div_fin _ hd.ne', neg_div, div_self hd.ne', R.neg _ R.one] at b
    have c := add_left R 1 b
    rwa [add_fin, add_neg_cancel, R.zero] at c
  · refine div_nonneg' R hd ?_
    have a : z ≤ fin d := (le_or_ge hz d).resolve_right fun h => h1 (Or.inr h)
    have b := div_right R hd a
    rw [div_fin _ hd.ne', div_self hd.ne', R.one] at b
    have c := sub_left R 1 b
    rwa [sub_fin, sub_self, R.zero] at c

theorem logistic_pdf (S : Sound M) {theta eta : ℝ} (ht : 0 < theta) (rt : M.Rep theta) : PdfNonneg M (logistic M (fin theta) (fin eta)).pdf := by
  have L := S.library
  have R := S.rounding
  intro x hx
  have hu := exp_unit L (neg_nonpos (abs_nonneg' (std_mono (eta := eta) R ht (value_self hx))))
  simp only [logistic]
  set t := M.exp (-XR.abs (M.div (M.sub x (fin eta)) (fin theta)))
  rw [zero_def, one_def]
  obtain ⟨w, ew, h2, -⟩ : ∃ w : ℝ, M.add (fin 1) t = fin w ∧ 1 ≤ w ∧ w ≤ 2 := by
    obtain ⟨t', et, h0, h1⟩ := between hu.1 hu.2
    rw [et]
    refine between ?_ ?_
    · rw [add_fin, ← R.one]; exact R.mono _ _ (by linarith)
    · rw [add_fin, ← R.two]; exact R.mono _ _ (by linarith)
  have grow : ∀ a : XR, fin theta ≤ a → fin theta ≤ M.mul a (fin w) := by
    intro a h
    refine le_trans' ?_ (mul_right R (by linarith) h)
    rw [mul_fin]
    conv_lhs => rw [← show M.rnd theta = fin theta from rt]
    exact R.mono _ _ (by nlinarith)
  rw [ew]
  exact nonneg_div R ht hu (grow _ (grow _ ((fin_le _ _).2 (le_refl _))))

end Rounded
end Trng
