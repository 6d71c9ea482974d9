import Mathlib.Analysis.Calculus.Deriv.MeanValue
import Mathlib.Analysis.Calculus.MeanValue
import Mathlib.Analysis.Calculus.Deriv.Pow
import Mathlib.Analysis.Calculus.Deriv.Mul
import Mathlib.Analysis.Calculus.Deriv.Add

/-! Bounds of polynomials with integer coefficients on intervals, checked by evaluation: a polynomial whose coefficients in
the Bernstein form are not negative is not negative on the interval.  With them the change of a function whose derivative is a
quotient of polynomials is bounded over a chain of intervals. -/
namespace Trng.PolyBound

/-- Value of the polynomial with the given coefficients, lowest first. -/
def pev : List Int → ℝ → ℝ
  | [], _ => 0
  | c :: l, x => (c : ℝ) + x * pev l x

def padd : List Int → List Int → List Int
  | [], q => q
  | p, [] => p
  | c :: p, d :: q => (c + d) :: padd p q
def psc (k : Int) : List Int → List Int
  | [] => []
  | c :: p => (k * c) :: psc k p
def pmul : List Int → List Int → List Int
  | [], _ => []
  | c :: p, q => padd (psc c q) (0 :: pmul p q)
def psub (p q : List Int) : List Int := padd p (psc (-1) q)
/-- derivative of `x^k` times the polynomial, divided by `x^(k-1)` -/
def pderAux (k : Int) : List Int → List Int
  | [] => []
  | c :: p => (k * c) :: pderAux (k + 1) p
def pder : List Int → List Int
  | [] => []
  | _ :: p => pderAux 1 p

theorem pev_add : ∀ (p q : List Int) (x : ℝ), pev (padd p q) x = pev p x + pev q x
  | [], q, x => by simp [padd, pev]
  | c :: p, [], x => by simp [padd, pev]
  | c :: p, d :: q, x => by simp only [padd, pev, pev_add p q, Int.cast_add]; ring
theorem pev_sc (k : Int) : ∀ (p : List Int) (x : ℝ), pev (psc k p) x = k * pev p x
  | [], x => by simp [psc, pev]
  | c :: p, x => by simp only [psc, pev, pev_sc k p, Int.cast_mul]; ring
theorem pev_mul : ∀ (p q : List Int) (x : ℝ), pev (pmul p q) x = pev p x * pev q x
  | [], q, x => by simp [pmul, pev]
  | c :: p, q, x => by simp only [pmul, pev, pev_add, pev_sc, pev_mul p q, Int.cast_zero]; ring
theorem pev_sub (p q : List Int) (x : ℝ) : pev (psub p q) x = pev p x - pev q x := by
  rw [psub, pev_add, pev_sc]; push_cast; ring
theorem pev_derAux (k : Int) : ∀ (p : List Int) (x : ℝ), pev (pderAux (k + 1) p) x = pev (pderAux k p) x + pev p x
  | [], x => by simp [pderAux, pev]
  | c :: p, x => by
    simp only [pderAux, pev, pev_derAux (k + 1) p]; push_cast; ring
theorem hasDerivAt_pev : ∀ (p : List Int) (x : ℝ), HasDerivAt (pev p) (pev (pder p) x) x
  | [], x => by
    have : pev [] = fun _ => (0 : ℝ) := rfl
    rw [this]; exact hasDerivAt_const x 0
  | c :: p, x => by
    have h : pev (c :: p) = fun x => (c : ℝ) + x * pev p x := rfl
    rw [h]
    have e : pev (pder (c :: p)) x = 1 * pev p x + x * pev (pder p) x := by
      cases p with
      | nil => simp [pder, pderAux, pev]
      | cons d q =>
        show pev (pderAux 1 (d :: q)) x = _
        simp only [pderAux, pev, pder]
        rw [pev_derAux 1 q]; push_cast; ring
    rw [e]
    exact ((hasDerivAt_id' x).mul (hasDerivAt_pev p x)).const_add _

/-- Homogeneous value: the sum of `l_k S^k T^(n-k)`. -/
def hev : List Int → ℝ → ℝ → ℝ
  | [], _, _ => 0
  | c :: l, S, T => (c : ℝ) * T ^ l.length + S * hev l S T

/-- times `a T + b S`; `prev` is the coefficient before -/
def lin (a b : Int) : Int → List Int → List Int
  | prev, [] => [b * prev]
  | prev, c :: l => (a * c + b * prev) :: lin a b c l
/-- `acc + c pw` -/
def axpy (c : Int) : List Int → List Int → List Int
  | x :: l, y :: k => (x + c * y) :: axpy c l k
  | _, _ => []
/-- Bernstein form (without the binomials) on `[a/m, b/m]` of the polynomial with the given coefficients, highest first. -/
def hom (a b m : Int) : List Int → List Int → List Int → List Int
  | [], acc, _ => acc
  | c :: l, acc, pw =>
    let pw := lin m m 0 pw
    hom a b m l (axpy c (lin a b 0 acc) pw) pw

theorem length_lin (a b : Int) : ∀ (l : List Int) (prev : Int), (lin a b prev l).length = l.length + 1
  | [], _ => rfl
  | c :: l, _ => by simp [lin, length_lin a b l c]
theorem hev_lin (a b : Int) (S T : ℝ) : ∀ (l : List Int) (prev : Int),
    hev (lin a b prev l) S T = (a * T + b * S) * hev l S T + b * prev * T ^ l.length
  | [], prev => by simp [lin, hev]
  | c :: l, prev => by
    simp only [lin, hev, hev_lin a b S T l c, length_lin, List.length_cons]; push_cast; ring
theorem length_axpy (c : Int) : ∀ (l k : List Int), l.length = k.length → (axpy c l k).length = l.length
  | [], k, _ => by simp [axpy]
  | x :: l, [], h => by simp at h
  | x :: l, y :: k, h => by simp [axpy, length_axpy c l k (by simpa using h)]
theorem hev_axpy (c : Int) (S T : ℝ) : ∀ (l k : List Int), l.length = k.length → hev (axpy c l k) S T = hev l S T + c * hev k S T
  | [], [], _ => by simp [axpy, hev]
  | x :: l, [], h => by simp at h
  | [], x :: l, h => by simp at h
  | x :: l, y :: k, h => by
    have hlen : l.length = k.length := by simpa using h
    simp only [axpy, hev, hev_axpy c S T l k hlen, length_axpy c l k hlen]
    rw [hlen]; push_cast; ring

/-- value of coefficients, highest first, on top of `v` -/
def horner (x : ℝ) : List Int → ℝ → ℝ
  | [], v => v
  | c :: l, v => horner x l (v * x + c)

theorem horner_append (x : ℝ) : ∀ (l : List Int) (c : Int) (v : ℝ), horner x (l ++ [c]) v = horner x l v * x + c
  | [], c, v => rfl
  | d :: l, c, v => by simp only [List.cons_append, horner]; exact horner_append x l c _
theorem horner_reverse (x : ℝ) : ∀ l : List Int, horner x l.reverse 0 = pev l x
  | [] => rfl
  | c :: l => by rw [List.reverse_cons, horner_append, horner_reverse x l, pev]; ring

theorem hev_hom {a b m : Int} {S T x : ℝ} (h1 : S + T = 1) (hx : a * T + b * S = m * x) : ∀ (l acc pw : List Int) (v : ℝ) (n : Nat),
    acc.length = pw.length → hev pw S T = m ^ n → hev acc S T = m ^ n * v →
    hev (hom a b m l acc pw) S T = m ^ (n + l.length) * horner x l v ∧ (hom a b m l acc pw).length = acc.length + l.length
  | [], acc, pw, v, n, _, _, h => ⟨by simpa [hom, horner] using h, by simp [hom]⟩
  | c :: l, acc, pw, v, n, hl, hp, ha => by
    have e1 : hev (lin m m 0 pw) S T = m ^ (n + 1) := by
      rw [hev_lin, hp, ← mul_add, add_comm T S, h1]; push_cast; ring
    have hlen : (lin a b 0 acc).length = (lin m m 0 pw).length := by rw [length_lin, length_lin, hl]
    have e2 : hev (axpy c (lin a b 0 acc) (lin m m 0 pw)) S T = m ^ (n + 1) * (v * x + c) := by
      rw [hev_axpy c S T _ _ hlen, e1, hev_lin, ha, hx]; push_cast; ring
    have := hev_hom h1 hx l _ (lin m m 0 pw) (v * x + c) (n + 1) (by rw [length_axpy _ _ _ hlen, hlen]) e1 e2
    rw [length_axpy _ _ _ hlen, length_lin] at this
    refine ⟨?_, ?_⟩
    · show hev (hom a b m l _ _) S T = _
      rw [this.1, horner, List.length_cons, show n + 1 + l.length = n + (l.length + 1) by omega]
    · show (hom a b m l _ _).length = _
      rw [this.2, List.length_cons]; omega

/-- the Bernstein form, coefficients lowest first -/
def bern (a b m : Int) (p : List Int) : List Int :=
  match p.reverse with
  | [] => []
  | c :: l => hom a b m l [c] [1]

theorem hev_bern {a b m : Int} {S T x : ℝ} (h1 : S + T = 1) (hx : a * T + b * S = m * x) (p : List Int) :
    hev (bern a b m p) S T = m ^ (p.length - 1) * pev p x ∧ (bern a b m p).length = p.length := by
  rw [← horner_reverse x p, ← List.length_reverse (as := p)]
  unfold bern
  cases p.reverse with
  | nil => simp [hev, horner]
  | cons c l =>
    have := hev_hom h1 hx l [c] [1] c 0 rfl (by simp [hev]) (by simp [hev])
    simp only [horner, zero_mul, zero_add, List.length_cons, Nat.add_sub_cancel]
    rw [this.1]
    exact ⟨by simp, by rw [this.2]; simp [Nat.add_comm]⟩

theorem hev_nonneg {S T : ℝ} (hS : 0 ≤ S) (hT : 0 ≤ T) : ∀ l : List Int, (∀ x ∈ l, 0 ≤ x) → 0 ≤ hev l S T
  | [], _ => le_rfl
  | c :: l, hp => by
    have ih := hev_nonneg hS hT l (fun x hx => hp x (by simp [hx]))
    have hc : (0 : ℝ) ≤ c := by exact_mod_cast hp c (by simp)
    have := mul_nonneg hc (pow_nonneg hT l.length)
    have := mul_nonneg hS ih
    show 0 ≤ (c : ℝ) * T ^ l.length + S * hev l S T
    linarith
theorem hev_pos {S T : ℝ} (hS : 0 ≤ S) (hT : 0 ≤ T) (h : 0 < S + T) : ∀ l : List Int, l ≠ [] → (∀ x ∈ l, 0 < x) → 0 < hev l S T
  | [], h, _ => absurd rfl h
  | [c], _, hp => by
    have hc : (0 : ℝ) < c := by exact_mod_cast hp c (by simp)
    simpa [hev] using hc
  | c :: d :: l, _, hp => by
    have ih := hev_pos hS hT h (d :: l) (by simp) (fun x hx => hp x (by simp at hx; simp [hx]))
    have hc : (0 : ℝ) < c := by exact_mod_cast hp c (by simp)
    show 0 < (c : ℝ) * T ^ _ + S * hev (d :: l) S T
    rcases hS.lt_or_eq with h0 | h0
    · have := mul_pos h0 ih
      have := mul_nonneg hc.le (pow_nonneg hT (d :: l).length)
      linarith
    · have hT' : 0 < T := by linarith
      rw [← h0, zero_mul, add_zero]
      exact mul_pos hc (pow_pos hT' _)
theorem length_psc (k : Int) : ∀ l : List Int, (psc k l).length = l.length
  | [] => rfl
  | c :: l => by simp [psc, length_psc k l]
theorem hev_psc (k : Int) (S T : ℝ) : ∀ l : List Int, hev (psc k l) S T = k * hev l S T
  | [] => by simp [psc, hev]
  | c :: l => by simp only [psc, hev, hev_psc k S T l, length_psc]; push_cast; ring

/-! The kernel evaluates the Bernstein form packed into one number, the coefficients being its digits in a large base. -/

/-- the kernel evaluates the argument before `f` is applied -/
noncomputable def force {α : Type} (f : Int → α) (a : Int) : α :=
  Int.rec (motive := fun _ => α) (fun n => Nat.rec (motive := fun _ => α) (f 0) (fun k _ => f (Int.ofNat (Nat.succ k))) n)
    (fun n => Nat.rec (motive := fun _ => α) (f (Int.negSucc 0)) (fun k _ => f (Int.negSucc (Nat.succ k))) n) a
theorem force_eq {α : Type} (f : Int → α) (a : Int) : force f a = f a := by
  rcases a with (_ | n) | (_ | n) <;> rfl

/-- the number with digits `l` in base `B` -/
def pk (B : Int) : List Int → Int
  | [] => 0
  | c :: l => c + B * pk B l
theorem pk_lin (B a b : Int) : ∀ (l : List Int) (prev : Int), pk B (lin a b prev l) = (a + b * B) * pk B l + b * prev
  | [], prev => by simp [lin, pk]
  | c :: l, prev => by simp only [lin, pk, pk_lin B a b l c]; ring
theorem pk_axpy (B c : Int) : ∀ (l k : List Int), l.length = k.length → pk B (axpy c l k) = pk B l + c * pk B k
  | [], [], _ => by simp [axpy, pk]
  | x :: l, [], h => by simp at h
  | [], x :: l, h => by simp at h
  | x :: l, y :: k, h => by simp only [axpy, pk, pk_axpy B c l k (by simpa using h)]; ring
theorem pk_psc (B k : Int) : ∀ l : List Int, pk B (psc k l) = k * pk B l
  | [] => by simp [psc, pk]
  | c :: l => by simp only [psc, pk, pk_psc B k l]; ring

/-- `pk` of `hom` -/
noncomputable def packH (A M : Int) : List Int → Int → Int → Int
  | [], acc, _ => acc
  | c :: l, acc, pw => force (fun pw => force (fun acc => packH A M l acc pw) (acc * A + c * pw)) (pw * M)
theorem packH_eq (B a b m : Int) : ∀ (l acc pw : List Int), acc.length = pw.length →
    packH (a + b * B) (m + m * B) l (pk B acc) (pk B pw) = pk B (hom a b m l acc pw)
  | [], acc, pw, _ => rfl
  | c :: l, acc, pw, hl => by
    have hlen : (lin a b 0 acc).length = (lin m m 0 pw).length := by rw [length_lin, length_lin, hl]
    have ih := packH_eq B a b m l (axpy c (lin a b 0 acc) (lin m m 0 pw)) (lin m m 0 pw) (by rw [length_axpy _ _ _ hlen, hlen])
    rw [packH, force_eq, force_eq]
    show _ = pk B (hom a b m l _ _)
    rw [← ih, pk_axpy _ _ _ _ hlen, pk_lin, pk_lin]
    congr 1 <;> ring

/-- bound of the coefficients of `hom` -/
noncomputable def boundH (A M : Int) : List Int → Int → Int → Int
  | [], acc, _ => acc
  | c :: l, acc, pw => force (fun pw => force (fun acc => boundH A M l acc pw) (acc * A + |c| * pw)) (pw * M)
theorem lin_le {a b n : Int} : ∀ (l : List Int) (prev : Int), |prev| ≤ n → (∀ x ∈ l, |x| ≤ n) → ∀ x ∈ lin a b prev l, |x| ≤ n * (|a| + |b|)
  | [], prev, hp, _, x, hx => by
    simp only [lin, List.mem_singleton] at hx
    subst hx
    rw [abs_mul]
    have := mul_le_mul_of_nonneg_left hp (abs_nonneg b)
    have := mul_nonneg ((abs_nonneg _).trans hp) (abs_nonneg a)
    linarith
  | c :: l, prev, hp, hl, x, hx => by
    simp only [lin, List.mem_cons] at hx
    rcases hx with rfl | hx
    · have h1 := mul_le_mul_of_nonneg_left hp (abs_nonneg b)
      have h2 := mul_le_mul_of_nonneg_left (hl c (by simp)) (abs_nonneg a)
      calc |a * c + b * prev| ≤ |a * c| + |b * prev| := abs_add_le _ _
        _ = |a| * |c| + |b| * |prev| := by rw [abs_mul, abs_mul]
        _ ≤ n * (|a| + |b|) := by linarith
    · exact lin_le l c (hl c (by simp)) (fun y hy => hl y (by simp [hy])) x hx
theorem axpy_le {c n k : Int} : ∀ (l p : List Int), (∀ x ∈ l, |x| ≤ n) → (∀ x ∈ p, |x| ≤ k) → ∀ x ∈ axpy c l p, |x| ≤ n + |c| * k
  | [], p, _, _, x, hx => by simp [axpy] at hx
  | y :: l, [], _, _, x, hx => by simp [axpy] at hx
  | y :: l, z :: p, hl, hp, x, hx => by
    simp only [axpy, List.mem_cons] at hx
    rcases hx with rfl | hx
    · have h1 := mul_le_mul_of_nonneg_left (hp z (by simp)) (abs_nonneg c)
      have h2 := hl y (by simp)
      calc |y + c * z| ≤ |y| + |c * z| := abs_add_le _ _
        _ = |y| + |c| * |z| := by rw [abs_mul]
        _ ≤ n + |c| * k := by linarith
    · exact axpy_le l p (fun y hy => hl y (by simp [hy])) (fun y hy => hp y (by simp [hy])) x hx
theorem boundH_le {a b m : Int} : ∀ (l acc pw : List Int) (n k : Int), 0 ≤ n → 0 ≤ k → (∀ x ∈ acc, |x| ≤ n) → (∀ x ∈ pw, |x| ≤ k) →
    ∀ x ∈ hom a b m l acc pw, |x| ≤ boundH (|a| + |b|) (|m| + |m|) l n k
  | [], acc, pw, n, k, _, _, h1, _ => h1
  | c :: l, acc, pw, n, k, hn, hk, h1, h2 => by
    have hk' := lin_le (a := m) (b := m) pw 0 (by simpa using hk) h2
    have hn' := axpy_le (c := c) _ _ (lin_le (a := a) (b := b) acc 0 (by simpa using hn) h1) hk'
    have := boundH_le (a := a) (b := b) (m := m) l _ _ _ _ (by positivity) (by positivity) hn' hk'
    rw [boundH, force_eq, force_eq]
    exact this

noncomputable def packB (B a b m : Int) (p : List Int) : Int :=
  match p.reverse with
  | [] => 0
  | c :: l => packH (a + b * B) (m + m * B) l c 1
noncomputable def boundB (a b m : Int) (p : List Int) : Int :=
  match p.reverse with
  | [] => 0
  | c :: l => boundH (|a| + |b|) (|m| + |m|) l |c| 1
theorem packB_eq (B a b m : Int) (p : List Int) : packB B a b m p = pk B (bern a b m p) := by
  unfold packB bern
  cases p.reverse with
  | nil => rfl
  | cons c l => simpa [pk] using packH_eq B a b m l [c] [1] rfl
theorem boundB_le (a b m : Int) (p : List Int) : ∀ x ∈ bern a b m p, |x| ≤ boundB a b m p := by
  unfold boundB bern
  cases p.reverse with
  | nil => simp
  | cons c l => exact boundH_le l [c] [1] _ _ (abs_nonneg _) (by norm_num) (by simp) (by simp)

/-- the `n` digits of `X` are at least `t` and less than half the base -/
def digitsOk (B t : Nat) : Nat → Nat → Bool
  | 0, X => Nat.beq X 0
  | n + 1, X => Nat.ble t (X % B) && Nat.blt (2 * (X % B)) B && digitsOk B t n (X / B)
theorem digits_sound {B t : Nat} : ∀ (l : List Int) (X : Nat), digitsOk B t l.length X = true → (∀ x ∈ l, 2 * |x| < B) →
    pk B l = X → ∀ x ∈ l, (t : Int) ≤ x
  | [], _, _, _, _, x, hx => by simp at hx
  | c :: l, X, h, hb, hX, x, hx => by
    simp only [List.length_cons, digitsOk, Bool.and_eq_true, Nat.ble_eq, Nat.blt_eq] at h
    obtain ⟨⟨h1, h2⟩, h3⟩ := h
    have hc := hb c (by simp)
    have hB : (0 : Int) < B := by have := abs_nonneg c; omega
    simp only [pk] at hX
    have e1 : ((X % B : Nat) : Int) = c % B := by
      rw [Int.natCast_emod, ← hX, Int.add_mul_emod_self_left]
    have hc2 := abs_lt.1 (show |c| < B by have := abs_nonneg c; omega)
    have hcc : c % B = c := by
      rcases lt_or_ge c 0 with h0 | h0
      · exfalso
        rw [abs_of_neg h0] at hc
        have : c % B = c + B := by
          rw [← Int.add_emod_right, Int.emod_eq_of_lt (by omega) (by omega)]
        omega
      · exact Int.emod_eq_of_lt h0 hc2.2
    rw [hcc] at e1
    simp only [List.mem_cons] at hx
    rcases hx with rfl | hx
    · omega
    · refine digits_sound l (X / B) h3 (fun y hy => hb y (by simp [hy])) ?_ x hx
      rw [Int.natCast_ediv, ← hX, Int.add_mul_ediv_left _ _ hB.ne', Int.ediv_eq_zero_of_lt (by omega) hc2.2, zero_add]

/-- digits of an integer -/
noncomputable def digitsOkI (B t n : Nat) (X : Int) : Bool :=
  Int.rec (motive := fun _ => Bool) (fun X => Nat.rec (motive := fun _ => Bool) (digitsOk B t n 0) (fun k _ => digitsOk B t n (Nat.succ k)) X)
    (fun _ => false) X
theorem digitsOkI_iff {B t n : Nat} {X : Int} (h : digitsOkI B t n X = true) : ∃ Y : Nat, X = Y ∧ digitsOk B t n Y = true := by
  rcases X with (_ | Y) | Y
  · exact ⟨0, rfl, h⟩
  · exact ⟨Y + 1, rfl, h⟩
  · exact absurd h (by simp [digitsOkI])

/-- On `[a/m, b/m]` the quotient `num/den` lies between `lo/s` and `hi/s`, and `den` is positive. -/
noncomputable def pieceOk (K : Nat) (num den : List Int) (a b m lo hi s : Int) : Bool :=
  force (fun B => force (fun D => force (fun N =>
    decide (num.length = den.length) &&
    decide (2 * (|s| * boundB a b m num + (|lo| + |hi| + 1) * boundB a b m den) < B) &&
    digitsOkI B.toNat 1 den.length D && digitsOkI B.toNat 0 den.length (s * N - lo * D) &&
    digitsOkI B.toNat 0 den.length (hi * D - s * N))
    (packB B a b m num)) (packB B a b m den)) (2 ^ K)

theorem piece_bound {K : Nat} {num den : List Int} {a b m lo hi s : Int} (hab : a < b) (hm : 0 < m) (hne : den ≠ [])
    (h : pieceOk K num den a b m lo hi s = true) {x : ℝ} (h0 : (a : ℝ) / m ≤ x) (h1 : x ≤ (b : ℝ) / m) :
    0 < pev den x ∧ lo * pev den x ≤ s * pev num x ∧ s * pev num x ≤ hi * pev den x := by
  have hab' : (a : ℝ) < b := by exact_mod_cast hab
  have hm' : (0 : ℝ) < m := by exact_mod_cast hm
  rw [div_le_iff₀ hm'] at h0
  rw [le_div_iff₀ hm'] at h1
  have hba : (0 : ℝ) < b - a := by linarith
  obtain ⟨S, hS⟩ : ∃ S : ℝ, S = (x * m - a) / (b - a) := ⟨_, rfl⟩
  obtain ⟨T, hT⟩ : ∃ T : ℝ, T = (b - x * m) / (b - a) := ⟨_, rfl⟩
  have hS0 : 0 ≤ S := by rw [hS]; exact div_nonneg (by linarith) hba.le
  have hT0 : 0 ≤ T := by rw [hT]; exact div_nonneg (by linarith) hba.le
  have h2 : S + T = 1 := by rw [hS, hT]; field_simp; ring
  have hx : a * T + b * S = m * x := by rw [hS, hT]; field_simp; ring
  simp only [pieceOk, force_eq, Bool.and_eq_true, decide_eq_true_eq] at h
  obtain ⟨⟨⟨⟨hl, hB⟩, hD⟩, hlo⟩, hhi⟩ := h
  have hd := hev_bern h2 hx den
  have hn := hev_bern h2 hx num
  have hlen : (bern a b m num).length = (bern a b m den).length := by rw [hn.2, hd.2, hl]
  have bn := boundB_le a b m num
  have bd := boundB_le a b m den
  have hBn : ((2 ^ K : Int).toNat : Int) = 2 ^ K := Int.toNat_of_nonneg (by positivity)
  have hbd0 : 0 ≤ boundB a b m den := by
    cases hbe : bern a b m den with
    | nil => exact absurd (List.length_eq_zero_iff.1 (by rw [← hd.2, hbe]; rfl)) hne
    | cons c l => exact (abs_nonneg _).trans (bd c (by rw [hbe]; simp))
  have hbn0 : 0 ≤ boundB a b m num := by
    cases hbe : bern a b m num with
    | nil => exact absurd (List.length_eq_zero_iff.1 (by rw [← hd.2, ← hlen, hbe]; rfl)) hne
    | cons c l => exact (abs_nonneg _).trans (bn c (by rw [hbe]; simp))
  have hsn : 0 ≤ |s| * boundB a b m num := mul_nonneg (abs_nonneg _) hbn0
  have hld : 0 ≤ |lo| * boundB a b m den := mul_nonneg (abs_nonneg _) hbd0
  have hhd : 0 ≤ |hi| * boundB a b m den := mul_nonneg (abs_nonneg _) hbd0
  -- the denominator
  have pd : ∀ y ∈ bern a b m den, 0 < y := by
    obtain ⟨Y, e, hY⟩ := digitsOkI_iff hD
    rw [packB_eq] at e
    have := digits_sound (bern a b m den) Y (by rw [hd.2]; exact hY) (fun y hy => by rw [hBn]; have := bd y hy; linarith) (by rw [hBn]; exact e)
    intro y hy
    have := this y hy
    push_cast at this
    omega
  have pscle : ∀ (k : Int) (l : List Int) (n : Int), (∀ y ∈ l, |y| ≤ n) → ∀ y ∈ psc k l, |y| ≤ |k| * n := by
    intro k l n hl
    induction l with
    | nil => simp [psc]
    | cons c l ih =>
      intro y hy
      simp only [psc, List.mem_cons] at hy
      rcases hy with rfl | hy
      · rw [abs_mul]; exact mul_le_mul_of_nonneg_left (hl c (by simp)) (abs_nonneg _)
      · exact ih (fun z hz => hl z (by simp [hz])) y hy
  have key : ∀ (u v : Int) , |u| * boundB a b m num + |v| * boundB a b m den ≤ |s| * boundB a b m num + (|lo| + |hi|) * boundB a b m den →
      digitsOkI (2 ^ K : Int).toNat 0 den.length (u * packB (2 ^ K) a b m num + v * packB (2 ^ K) a b m den) = true →
      0 ≤ (u : ℝ) * hev (bern a b m num) S T + v * hev (bern a b m den) S T := by
    intro u v huv hdig
    obtain ⟨Y, e, hY⟩ := digitsOkI_iff hdig
    have hlen' : (psc u (bern a b m num)).length = (bern a b m den).length := by rw [length_psc, hlen]
    have hle := axpy_le (c := v) _ _ (pscle u _ _ bn) bd
    have := digits_sound (axpy v (psc u (bern a b m num)) (bern a b m den)) Y
      (by rw [length_axpy _ _ _ hlen', hlen', hd.2]; exact hY)
      (fun y hy => by rw [hBn]; have := hle y hy; linarith)
      (by rw [hBn, pk_axpy _ _ _ _ hlen', pk_psc, ← packB_eq, ← packB_eq]; exact e)
    have := hev_nonneg hS0 hT0 _ this
    rw [hev_axpy _ _ _ _ _ hlen', hev_psc] at this
    exact this
  have klo := key s (-lo) (by rw [abs_neg]; linarith) (by rw [show s * packB (2 ^ K) a b m num + -lo * packB (2 ^ K) a b m den =
    s * packB (2 ^ K) a b m num - lo * packB (2 ^ K) a b m den by ring]; exact hlo)
  have khi := key (-s) hi (by rw [abs_neg]; linarith) (by rw [show -s * packB (2 ^ K) a b m num + hi * packB (2 ^ K) a b m den =
    hi * packB (2 ^ K) a b m den - s * packB (2 ^ K) a b m num by ring]; exact hhi)
  have hpos := hev_pos hS0 hT0 (by rw [h2]; norm_num) (bern a b m den) (by
    intro hc
    have := hd.2
    rw [hc] at this
    exact hne (List.length_eq_zero_iff.1 this.symm)) pd
  rw [hn.1, hd.1, hl] at klo khi
  rw [hd.1] at hpos
  push_cast at klo khi
  have hmp : (0 : ℝ) < (m : ℝ) ^ (den.length - 1) := pow_pos hm' _
  generalize (m : ℝ) ^ (den.length - 1) = c at klo khi hpos hmp
  refine ⟨(pos_iff_pos_of_mul_pos hpos).1 hmp, ?_, ?_⟩
  · have : c * (lo * pev den x) ≤ c * (s * pev num x) := by linarith
    exact le_of_mul_le_mul_left this hmp
  · have : c * (s * pev num x) ≤ c * (hi * pev den x) := by linarith
    exact le_of_mul_le_mul_left this hmp

/-- A chain of intervals: end of the interval, bounds of the quotient on it.  `k`, `L`, `U`: left end, bounds of the function
there (in units of `1/(m s)`).  On all intervals the function stays between `lb` and `ub`; the bounds at the end are `L'`, `U'`. -/
noncomputable def chainOk (K : Nat) (num den : List Int) (m s lb ub : Int) : List (Int × Int × Int) → Int → Int → Int → Int → Int → Int → Bool
  | [], k, L, U, k', L', U' => decide (k = k') && decide (L' ≤ L) && decide (U ≤ U') && decide (lb ≤ L) && decide (U ≤ ub)
  | (b, lo, hi) :: rest, k, L, U, k', L', U' =>
    decide (k < b) && decide (lb ≤ L) && decide (U ≤ ub) && decide (lb ≤ L + lo * (b - k)) && decide (U + hi * (b - k) ≤ ub) &&
    pieceOk K num den k b m lo hi s && chainOk K num den m s lb ub rest b (L + lo * (b - k)) (U + hi * (b - k)) k' L' U'

theorem chain_bound {K : Nat} {num den : List Int} {m s lb ub : Int} (hm : 0 < m) (hs : 0 < s) (hne : den ≠ []) {F F' : ℝ → ℝ} {k' L' U' : Int} :
    ∀ (ps : List (Int × Int × Int)) (k L U : Int), chainOk K num den m s lb ub ps k L U k' L' U' = true →
    (∀ x : ℝ, (k : ℝ) / m ≤ x → x ≤ (k' : ℝ) / m → HasDerivAt F (F' x) x ∧ F' x * pev den x = pev num x) →
    (L : ℝ) ≤ m * s * F (k / m) → m * s * F (k / m) ≤ U →
    (k ≤ k' ∧ ∀ x : ℝ, (k : ℝ) / m ≤ x → x ≤ (k' : ℝ) / m → (lb : ℝ) ≤ m * s * F x ∧ m * s * F x ≤ ub) ∧
      (L' : ℝ) ≤ m * s * F (k' / m) ∧ m * s * F (k' / m) ≤ U'
  | [], k, L, U, h, _, hL, hU => by
    simp only [chainOk, Bool.and_eq_true, decide_eq_true_eq] at h
    obtain ⟨⟨⟨⟨h1, h2⟩, h3⟩, h4⟩, h5⟩ := h
    subst h1
    have h2' : (L' : ℝ) ≤ L := by exact_mod_cast h2
    have h3' : (U : ℝ) ≤ U' := by exact_mod_cast h3
    have h4' : (lb : ℝ) ≤ L := by exact_mod_cast h4
    have h5' : (U : ℝ) ≤ ub := by exact_mod_cast h5
    refine ⟨⟨le_rfl, fun x h0 h1 => ?_⟩, by linarith, by linarith⟩
    have : x = k / m := le_antisymm h1 h0
    rw [this]
    exact ⟨by linarith, by linarith⟩
  | (b, lo, hi) :: rest, k, L, U, h, hF, hL, hU => by
    simp only [chainOk, Bool.and_eq_true, decide_eq_true_eq] at h
    obtain ⟨⟨⟨⟨⟨⟨h1, h2⟩, h3⟩, h4⟩, h5⟩, h6⟩, h7⟩ := h
    have hm' : (0 : ℝ) < m := by exact_mod_cast hm
    have hs' : (0 : ℝ) < s := by exact_mod_cast hs
    have hms : (0 : ℝ) < m * s := mul_pos hm' hs'
    have h1' : (k : ℝ) < b := by exact_mod_cast h1
    have hkb : (k : ℝ) / m < (b : ℝ) / m := div_lt_div_of_pos_right h1' hm'
    have hbk' : b ≤ k' := by
      clear hF hL hU h6 h1 h2 h3 h4 h5 h1' hkb
      revert h7
      generalize L + lo * (b - k) = L1
      generalize U + hi * (b - k) = U1
      clear k L U
      induction rest generalizing b L1 U1 with
      | nil =>
        intro h
        simp only [chainOk, Bool.and_eq_true, decide_eq_true_eq] at h
        omega
      | cons p rest ih =>
        intro h
        obtain ⟨b', lo', hi'⟩ := p
        simp only [chainOk, Bool.and_eq_true, decide_eq_true_eq] at h
        have := ih _ _ _ h.2
        omega
    have hbk : (b : ℝ) / m ≤ (k' : ℝ) / m := div_le_div_of_nonneg_right (by exact_mod_cast hbk') hm'.le
    have hder : ∀ x ∈ Set.Icc ((k : ℝ) / m) (b / m), HasDerivAt F (F' x) x ∧ lo ≤ s * F' x ∧ s * F' x ≤ hi := by
      intro x hx
      obtain ⟨d1, d2⟩ := hF x hx.1 (hx.2.trans hbk)
      obtain ⟨p1, p2, p3⟩ := piece_bound h1 hm hne h6 hx.1 hx.2
      refine ⟨d1, ?_, ?_⟩
      · rw [← d2, ← mul_assoc] at p2; exact le_of_mul_le_mul_right p2 p1
      · rw [← d2, ← mul_assoc] at p3; exact le_of_mul_le_mul_right p3 p1
    have hinc : ∀ x ∈ Set.Icc ((k : ℝ) / m) (b / m), lo * (m * x - k) ≤ m * s * F x - m * s * F (k / m) ∧
        m * s * F x - m * s * F (k / m) ≤ hi * (m * x - k) := by
      intro x hx
      rcases hx.1.lt_or_eq with hlt | heq
      · obtain ⟨c, hc, hcd⟩ := exists_hasDerivAt_eq_slope F F' hlt
          (fun y hy => (hder y ⟨hy.1, hy.2.trans hx.2⟩).1.continuousAt.continuousWithinAt)
          (fun y hy => (hder y ⟨hy.1.le, hy.2.le.trans hx.2⟩).1)
        obtain ⟨_, q1, q2⟩ := hder c ⟨hc.1.le, hc.2.le.trans hx.2⟩
        have hp : 0 < x - k / m := by linarith
        rw [eq_div_iff hp.ne'] at hcd
        have e : m * x - k = m * (x - k / m) := by field_simp
        have e2 : m * s * F x - m * s * F (k / m) = s * F' c * (m * (x - k / m)) := by rw [← mul_sub, ← hcd]; ring
        rw [e, e2]
        have := mul_pos hm' hp
        exact ⟨mul_le_mul_of_nonneg_right q1 this.le, mul_le_mul_of_nonneg_right q2 this.le⟩
      · rw [← heq, mul_div_cancel₀ _ hm'.ne']; simp
    have hend := hinc (b / m) ⟨hkb.le, le_rfl⟩
    rw [mul_div_cancel₀ _ hm'.ne'] at hend
    obtain ⟨⟨i1, i2⟩, i3⟩ := chain_bound hm hs hne rest b (L + lo * (b - k)) (U + hi * (b - k)) h7
      (fun x hx hx' => hF x (hkb.le.trans hx) hx') (by push_cast; linarith) (by push_cast; linarith)
    refine ⟨⟨by omega, fun x hx hx' => ?_⟩, i3⟩
    rcases le_total x (b / m) with hxb | hxb
    · have := hinc x ⟨hx, hxb⟩
      have h2' : (lb : ℝ) ≤ L := by exact_mod_cast h2
      have h3' : (U : ℝ) ≤ ub := by exact_mod_cast h3
      have h4' : (lb : ℝ) ≤ L + lo * (b - k) := by exact_mod_cast h4
      have h5' : (U : ℝ) + hi * (b - k) ≤ ub := by exact_mod_cast h5
      have hw0 : 0 ≤ m * x - k := by rw [div_le_iff₀ hm'] at hx; linarith
      have hw1 : m * x - k ≤ b - k := by rw [le_div_iff₀ hm'] at hxb; linarith
      refine ⟨?_, ?_⟩
      · rcases le_total 0 (lo : ℝ) with hlo | hlo
        · have := mul_nonneg hlo hw0; linarith
        · have := mul_le_mul_of_nonpos_left hw1 hlo; linarith
      · rcases le_total 0 (hi : ℝ) with hhi | hhi
        · have := mul_le_mul_of_nonneg_left hw1 hhi; linarith
        · have := mul_nonpos_of_nonpos_of_nonneg hhi hw0; linarith
    · exact i2 x hxb hx'

end Trng.PolyBound
