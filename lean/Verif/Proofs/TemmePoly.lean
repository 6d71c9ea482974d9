import Mathlib.Analysis.Calculus.Deriv.Pow
import Mathlib.Analysis.Calculus.Deriv.Mul
import Mathlib.Analysis.Calculus.Deriv.Add
import Mathlib.Analysis.SpecialFunctions.ExpDeriv
import Mathlib.Tactic.Linarith
import Mathlib.Tactic.FieldSimp

/-! Polynomials as lists of coefficients, lowest first, and the moments of a Gaussian: for the asymptotic expansion of the incomplete
Gamma functions. -/
namespace Trng.Temme

section
variable {R : Type} [Field R]

def ev : List R → R → R
  | [], _ => 0
  | c :: l, x => c + x * ev l x

def padd : List R → List R → List R
  | [], q => q
  | p, [] => p
  | c :: p, d :: q => (c + d) :: padd p q
def psc (k : R) : List R → List R
  | [] => []
  | c :: p => (k * c) :: psc k p
def pmul : List R → List R → List R
  | [], _ => []
  | c :: p, q => padd (psc c q) (0 :: pmul p q)
/-- antiderivative of `x^k` times the polynomial, divided by `x^(k+1)` -/
def pintAux (k : ℕ) : List R → List R
  | [] => []
  | c :: p => (c / (k + 1 : ℕ)) :: pintAux (k + 1) p

theorem ev_padd : ∀ (p q : List R) (x : R), ev (padd p q) x = ev p x + ev q x
  | [], q, x => by simp [padd, ev]
  | c :: p, [], x => by simp [padd, ev]
  | c :: p, d :: q, x => by simp only [padd, ev, ev_padd p q]; ring
theorem ev_psc (k : R) : ∀ (p : List R) (x : R), ev (psc k p) x = k * ev p x
  | [], x => by simp [psc, ev]
  | c :: p, x => by simp only [psc, ev, ev_psc k p]; ring
theorem ev_pmul : ∀ (p q : List R) (x : R), ev (pmul p q) x = ev p x * ev q x
  | [], q, x => by simp [pmul, ev]
  | c :: p, q, x => by simp only [pmul, ev, ev_padd, ev_psc, ev_pmul p q]; ring
end

/-- Value at a real number of a polynomial with rational coefficients. -/
noncomputable def evr (l : List ℚ) (x : ℝ) : ℝ := ev (l.map fun c => (c : ℝ)) x

@[simp] theorem evr_nil (x : ℝ) : evr [] x = 0 := rfl
@[simp] theorem evr_cons (c : ℚ) (l : List ℚ) (x : ℝ) : evr (c :: l) x = c + x * evr l x := rfl

theorem evr_rat : ∀ (l : List ℚ) (x : ℚ), evr l x = (ev l x : ℚ)
  | [], x => by simp [ev]
  | c :: l, x => by rw [evr_cons, evr_rat l x, ev]; push_cast; rfl

theorem evr_padd : ∀ (p q : List ℚ) (x : ℝ), evr (padd p q) x = evr p x + evr q x
  | [], q, x => by simp [padd]
  | c :: p, [], x => by simp [padd]
  | c :: p, d :: q, x => by simp only [padd, evr_cons, evr_padd p q]; push_cast; ring
theorem evr_psc (k : ℚ) : ∀ (p : List ℚ) (x : ℝ), evr (psc k p) x = k * evr p x
  | [], x => by simp [psc]
  | c :: p, x => by simp only [psc, evr_cons, evr_psc k p]; push_cast; ring
theorem evr_pmul : ∀ (p q : List ℚ) (x : ℝ), evr (pmul p q) x = evr p x * evr q x
  | [], q, x => by simp [pmul]
  | c :: p, q, x => by simp only [pmul, evr_cons, evr_padd, evr_psc, evr_pmul p q]; push_cast; ring

theorem hd_congr {f g : ℝ → ℝ} {x d d' : ℝ} (h : HasDerivAt f d x) (hf : ∀ x, g x = f x) (hd : d' = d) : HasDerivAt g d' x := by
  rw [hd, show g = f from funext hf]; exact h

theorem hasDerivAt_pintAux : ∀ (l : List ℚ) (k : ℕ) (x : ℝ), HasDerivAt (fun x => x ^ (k + 1) * evr (pintAux k l) x) (x ^ k * evr l x) x
  | [], k, x => by simpa [pintAux] using hasDerivAt_const x (0 : ℝ)
  | c :: l, k, x => by
    have ih := hasDerivAt_pintAux l (k + 1) x
    have h1 := ((hasDerivAt_pow (k + 1) x).mul_const ((c : ℝ) / (k + 1 : ℕ))).add ih
    have hk : ((k + 1 : ℕ) : ℝ) ≠ 0 := by positivity
    refine hd_congr h1 (fun x => ?_) ?_
    · simp only [pintAux, evr_cons, Pi.add_apply]; push_cast; ring
    · rw [evr_cons, Nat.add_sub_cancel]; field_simp; ring

theorem hasDerivAt_pint (l : List ℚ) (x : ℝ) : HasDerivAt (evr (0 :: pintAux 0 l)) (evr l x) x := by
  have := hasDerivAt_pintAux l 0 x
  simp only [zero_add, pow_one, pow_zero, one_mul] at this
  refine this.congr_of_eventuallyEq (Filter.Eventually.of_forall fun x => ?_)
  simp

theorem continuous_evr : ∀ l : List ℚ, Continuous (evr l)
  | [] => continuous_const
  | c :: l => by
    have : evr (c :: l) = fun x => (c : ℝ) + x * evr l x := rfl
    rw [this]
    exact continuous_const.add (continuous_id.mul (continuous_evr l))

/-- absolute values of the coefficients -/
def pabs (l : List ℚ) : List ℚ := l.map fun c => |c|

theorem abs_evr_le : ∀ (l : List ℚ) (x : ℝ), |evr l x| ≤ evr (pabs l) |x|
  | [], x => by simp [pabs]
  | c :: l, x => by
    have ih := abs_evr_le l x
    simp only [pabs, List.map_cons, evr_cons] at ih ⊢
    calc |(c : ℝ) + x * evr l x| ≤ |(c : ℝ)| + |x * evr l x| := abs_add_le _ _
      _ = |(c : ℝ)| + |x| * |evr l x| := by rw [abs_mul]
      _ ≤ _ := by push_cast; have := mul_le_mul_of_nonneg_left ih (abs_nonneg x); linarith

/-- no coefficient is negative -/
def nonneg (l : List ℚ) : Prop := ∀ c ∈ l, 0 ≤ c
instance (l : List ℚ) : Decidable (nonneg l) := inferInstanceAs (Decidable (∀ c ∈ l, 0 ≤ c))

theorem nonneg_pabs (l : List ℚ) : nonneg (pabs l) := by
  intro c hc
  obtain ⟨x, -, rfl⟩ := List.mem_map.1 hc
  exact abs_nonneg x

theorem evr_nonneg : ∀ {l : List ℚ}, nonneg l → ∀ {x : ℝ}, 0 ≤ x → 0 ≤ evr l x
  | [], _, x, _ => le_rfl
  | c :: l, h, x, hx => by
    have ih := evr_nonneg (l := l) (fun c hc => h c (by simp [hc])) hx
    have hc : (0 : ℝ) ≤ c := by exact_mod_cast h c (by simp)
    rw [evr_cons]
    positivity
theorem evr_mono : ∀ {l : List ℚ}, nonneg l → ∀ {x y : ℝ}, 0 ≤ x → x ≤ y → evr l x ≤ evr l y
  | [], _, x, y, _, _ => le_rfl
  | c :: l, h, x, y, hx, hxy => by
    have hl : nonneg l := fun c hc => h c (by simp [hc])
    have ih := evr_mono hl hx hxy
    rw [evr_cons, evr_cons]
    have := mul_le_mul hxy ih (evr_nonneg hl hx) (hx.trans hxy)
    linarith
theorem nonneg_padd : ∀ {p q : List ℚ}, nonneg p → nonneg q → nonneg (padd p q)
  | [], q, _, hq => hq
  | c :: p, [], hp, _ => hp
  | c :: p, d :: q, hp, hq => by
    intro x hx
    simp only [padd, List.mem_cons] at hx
    rcases hx with rfl | hx
    · exact add_nonneg (hp c (by simp)) (hq d (by simp))
    · exact nonneg_padd (p := p) (q := q) (fun c hc => hp c (by simp [hc])) (fun c hc => hq c (by simp [hc])) x hx
theorem nonneg_psc {k : ℚ} (hk : 0 ≤ k) : ∀ {p : List ℚ}, nonneg p → nonneg (psc k p)
  | [], _ => fun x hx => by simp [psc] at hx
  | c :: p, hp => by
    intro x hx
    simp only [psc, List.mem_cons] at hx
    rcases hx with rfl | hx
    · exact mul_nonneg hk (hp c (by simp))
    · exact nonneg_psc hk (p := p) (fun c hc => hp c (by simp [hc])) x hx
theorem nonneg_pintAux : ∀ {p : List ℚ} (k : ℕ), nonneg p → nonneg (pintAux k p)
  | [], _, _ => fun x hx => by simp [pintAux] at hx
  | c :: p, k, hp => by
    intro x hx
    simp only [pintAux, List.mem_cons] at hx
    rcases hx with rfl | hx
    · have := hp c (by simp)
      positivity
    · exact nonneg_pintAux (p := p) (k + 1) (fun c hc => hp c (by simp [hc])) x hx
theorem nonneg_cons {c : ℚ} {p : List ℚ} (hc : 0 ≤ c) (hp : nonneg p) : nonneg (c :: p) := by
  intro x hx
  rcases List.mem_cons.1 hx with rfl | hx
  · exact hc
  · exact hp x hx

/-- bound of `x^j / x^K` times the coefficients, `j` the index of the first one, for `s ≤ x ≤ r` -/
def cap (s r : ℚ) (K : ℕ) : ℕ → List ℚ → ℚ
  | _, [] => 0
  | j, c :: l => c * (if j < K then s⁻¹ ^ (K - j) else r ^ (j - K)) + cap s r K (j + 1) l

theorem evr_cap {s r : ℚ} (hs : 0 < s) (K : ℕ) {x : ℝ} (h1 : (s : ℝ) ≤ x) (h2 : x ≤ r) : ∀ (l : List ℚ) (j : ℕ), nonneg l →
    x ^ j * evr l x ≤ cap s r K j l * x ^ K
  | [], j, _ => by simp [cap]
  | c :: l, j, h => by
    have ih := evr_cap hs K h1 h2 l (j + 1) (fun c hc => h c (by simp [hc]))
    have hc : (0 : ℝ) ≤ c := by exact_mod_cast h c (by simp)
    have hs' : (0 : ℝ) < s := by exact_mod_cast hs
    have hx : 0 < x := by linarith
    have key : x ^ j ≤ ((if j < K then s⁻¹ ^ (K - j) else r ^ (j - K) : ℚ) : ℝ) * x ^ K := by
      split_ifs with hj
      · have e : x ^ K = x ^ (K - j) * x ^ j := by rw [← pow_add]; congr 1; omega
        rw [e, ← mul_assoc]
        push_cast
        rw [← mul_pow]
        refine le_mul_of_one_le_left (by positivity) (one_le_pow₀ ?_)
        rw [inv_mul_eq_div, le_div_iff₀ hs']; linarith
      · have e : x ^ j = x ^ (j - K) * x ^ K := by rw [← pow_add]; congr 1; omega
        rw [e]
        push_cast
        exact mul_le_mul_of_nonneg_right (pow_le_pow_left₀ hx.le h2 _) (by positivity)
    rw [evr_cons, cap]
    rw [Rat.cast_add, Rat.cast_mul]
    have := mul_le_mul_of_nonneg_left key hc
    rw [pow_succ] at ih
    nlinarith

/-! ### Moments -/

/-- `∫_t^∞ x^(2N+1) exp(-a (x^2 - t^2)/2) dx` -/
def mom {R : Type} [Field R] (a t : R) : ℕ → R
  | 0 => 1 / a
  | N + 1 => t ^ (2 * (N + 1)) / a + (2 * (N + 1) : ℕ) / a * mom a t N

theorem mom_rat (a t : ℚ) : ∀ N, mom (a : ℝ) (t : ℝ) N = (mom a t N : ℚ)
  | 0 => by simp [mom]
  | N + 1 => by rw [mom, mom_rat a t N, mom]; push_cast; rfl

theorem mom_pos {a t : ℝ} (ha : 0 < a) (ht : 0 ≤ t) : ∀ N, 0 < mom a t N
  | 0 => by rw [mom]; positivity
  | N + 1 => by
    rw [mom]
    have := mom_pos ha ht N
    have h2 : (0 : ℝ) < (2 * (N + 1) : ℕ) := by positivity
    positivity
theorem mom_anti {a b t : ℝ} (ha : 0 < a) (hab : a ≤ b) (ht : 0 ≤ t) : ∀ N, mom b t N ≤ mom a t N
  | 0 => by rw [mom, mom]; exact one_div_le_one_div_of_le ha hab
  | N + 1 => by
    rw [mom, mom]
    have h1 := mom_anti ha hab ht N
    have h2 : t ^ (2 * (N + 1)) / b ≤ t ^ (2 * (N + 1)) / a := div_le_div_of_nonneg_left (by positivity) ha hab
    have h3 : ((2 * (N + 1) : ℕ) : ℝ) / b ≤ (2 * (N + 1) : ℕ) / a := div_le_div_of_nonneg_left (by positivity) ha hab
    have := mul_le_mul h3 h1 (mom_pos (ha.trans_le hab) ht N).le (by positivity)
    linarith

theorem hasDerivAt_gauss (a t : ℝ) : HasDerivAt (fun t => Real.exp (-(a * t ^ 2 / 2))) (Real.exp (-(a * t ^ 2 / 2)) * (-(a * t))) t := by
  have h : HasDerivAt (fun t : ℝ => -(a * t ^ 2 / 2)) (-(a * t)) t := by
    have := (((hasDerivAt_pow 2 t).const_mul a).div_const 2).neg
    refine hd_congr this (fun x => rfl) ?_
    push_cast; ring
  exact h.exp

theorem hasDerivAt_mom {a : ℝ} (ha : a ≠ 0) (t : ℝ) : ∀ N, HasDerivAt (fun t => Real.exp (-(a * t ^ 2 / 2)) * mom a t N)
    (-(t ^ (2 * N + 1) * Real.exp (-(a * t ^ 2 / 2)))) t
  | 0 => by
    have := (hasDerivAt_gauss a t).mul_const (1 / a)
    refine hd_congr this (fun x => rfl) ?_
    field_simp
    simp
  | N + 1 => by
    have h1 := ((hasDerivAt_gauss a t).mul ((hasDerivAt_pow (2 * (N + 1)) t).div_const a)).add
      ((hasDerivAt_mom ha t N).const_mul (((2 * (N + 1) : ℕ) : ℝ) / a))
    refine hd_congr h1 (fun x => ?_) ?_
    · simp only [mom, Pi.add_apply, Pi.mul_apply]; ring
    · rw [show 2 * (N + 1) - 1 = 2 * N + 1 by omega]
      have e : t ^ (2 * (N + 1) + 1) = t ^ (2 * (N + 1)) * t := pow_succ _ _
      rw [e]
      field_simp
      ring

end Trng.Temme
