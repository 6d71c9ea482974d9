import Mathlib.NumberTheory.LucasPrimality
import Mathlib.Data.ZMod.Basic
import Mathlib.Algebra.Algebra.Basic

/-! Powers modulo a number and modulo a polynomial in a form the kernel evaluates fast, and primality
certificates based on them. -/
namespace Trng.PowMod

/-- `acc^(2^i) * a^(E % 2^i)` modulo `p` (the match makes the kernel evaluate the accumulator) -/
def npow (a p E : Nat) : Nat → Nat → Nat
  | 0, acc => acc
  | i + 1, acc =>
    match (if (E >>> i) % 2 = 1 then acc * acc % p * a % p else acc * acc % p) with
    | 0 => npow a p E i 0
    | k + 1 => npow a p E i (k + 1)

theorem npow_succ (a p E i acc : Nat) : npow a p E (i + 1) acc =
    npow a p E i (if (E >>> i) % 2 = 1 then acc * acc % p * a % p else acc * acc % p) := by
  rw [npow]
  split
  · rename_i h; rw [h]
  · rename_i h; rw [h]

theorem mod_two_pow_succ (E i : Nat) : E % 2 ^ (i + 1) = 2 ^ i * ((E >>> i) % 2) + E % 2 ^ i := by
  rw [Nat.mod_pow_succ, Nat.shiftRight_eq_div_pow, add_comm]

theorem npow_spec (a p E : Nat) : ∀ i acc, ((npow a p E i acc : Nat) : ZMod p) =
    (acc : ZMod p) ^ 2 ^ i * (a : ZMod p) ^ (E % 2 ^ i)
  | 0, acc => by simp [npow, Nat.mod_one]
  | i + 1, acc => by
    rw [npow_succ, npow_spec a p E i, mod_two_pow_succ, pow_add _ _ (E % 2 ^ i), ← mul_assoc]
    congr 1
    have h2 : (E >>> i) % 2 = 0 ∨ (E >>> i) % 2 = 1 := by omega
    rcases h2 with h | h
    · rw [h, if_neg (by omega), Nat.mul_zero, pow_zero, mul_one]
      simp only [ZMod.natCast_mod, Nat.cast_mul]
      rw [pow_succ' 2 i, pow_mul, pow_two]
    · rw [h, if_pos rfl, Nat.mul_one]
      simp only [ZMod.natCast_mod, Nat.cast_mul]
      rw [pow_succ' 2 i, pow_mul, pow_two, mul_pow]

/-- `a^E` modulo `p` for an exponent with at most 200 binary digits -/
def powMod (a p E : Nat) : Nat := npow a p E 200 1

theorem powMod_cast (a p E : Nat) (hE : E < 2 ^ 200) : ((powMod a p E : Nat) : ZMod p) = (a : ZMod p) ^ E := by
  rw [powMod, npow_spec, Nat.mod_eq_of_lt hE]; simp

/-- the product of a list with multiplicities -/
def prodPow (l : List (Nat × Nat)) : Nat := (l.map fun q => q.1 ^ q.2).prod

theorem mem_of_prime_dvd {l : List (Nat × Nat)} (hl : ∀ q ∈ l, q.1.Prime) {p : Nat} (hp : p.Prime)
    (hd : p ∣ prodPow l) : p ∈ l.map Prod.fst := by
  unfold prodPow at hd
  obtain ⟨x, hx, hpx⟩ := (Nat.Prime.prime hp).dvd_prod_iff.1 hd
  obtain ⟨q, hq, rfl⟩ := List.mem_map.1 hx
  have : p = q.1 := (Nat.prime_dvd_prime_iff_eq hp (hl q hq)).1 (hp.dvd_of_dvd_pow hpx)
  exact List.mem_map.2 ⟨q, hq, this.symm⟩

/-- The computations of a Pratt certificate. -/
def prattCheck (p a : Nat) (l : List (Nat × Nat)) : Bool :=
  decide (1 < p) && decide (p < 2 ^ 200) && decide (prodPow l = p - 1) && decide (powMod a p (p - 1) = 1) &&
    l.all fun q => decide (powMod a p ((p - 1) / q.1) < p) && decide (powMod a p ((p - 1) / q.1) ≠ 1)

theorem pow_ne_one {p a E : Nat} (h1 : 1 < p) (hE : E < 2 ^ 200) (hlt : powMod a p E < p) (hne : powMod a p E ≠ 1) :
    (a : ZMod p) ^ E ≠ 1 := by
  rw [← powMod_cast a p E hE]
  intro hc
  rw [← Nat.cast_one, ZMod.natCast_eq_natCast_iff', Nat.mod_eq_of_lt hlt, Nat.mod_eq_of_lt h1] at hc
  exact hne hc

theorem pratt (p a : Nat) (l : List (Nat × Nat)) (hl : ∀ q ∈ l, q.1.Prime) (h : prattCheck p a l = true) :
    p.Prime := by
  simp only [prattCheck, Bool.and_eq_true, decide_eq_true_eq, List.all_eq_true] at h
  obtain ⟨⟨⟨⟨h1, h2⟩, h3⟩, h4⟩, h5⟩ := h
  refine lucas_primality p (a : ZMod p) ?_ ?_
  · rw [← powMod_cast a p _ (by omega), h4, Nat.cast_one]
  · intro q hq hd
    rw [← h3] at hd
    obtain ⟨x, hx, rfl⟩ := List.mem_map.1 (mem_of_prime_dvd hl hq hd)
    obtain ⟨h6, h7⟩ := h5 x hx
    exact pow_ne_one h1 (lt_of_le_of_lt (Nat.div_le_self _ _) (by omega)) h6 h7

/-! ### polynomials modulo a monic polynomial -/

/-- evaluates the entries of a list before they are used -/
def force {β : Type} : List Nat → (List Nat → β) → β
  | [], k => k []
  | 0 :: l, k => force l fun l => k (0 :: l)
  | (x + 1) :: l, k => force l fun l => k ((x + 1) :: l)

theorem force_eq {β : Type} : ∀ (l : List Nat) (k : List Nat → β), force l k = k l
  | [], k => rfl
  | 0 :: l, k => by rw [force, force_eq l]
  | (x + 1) :: l, k => by rw [force, force_eq l]

/-- `c * x + y` modulo `m`, entry by entry -/
def axpy (m c : Nat) : List Nat → List Nat → List Nat
  | [], _ => []
  | _, [] => []
  | x :: xs, y :: ys => (c * x + y) % m :: axpy m c xs ys

/-- the last entry, and the list without it -/
def unsnoc : List Nat → List Nat × Nat
  | [] => ([], 0)
  | [x] => ([], x)
  | x :: y :: l => (x :: (unsnoc (y :: l)).1, (unsnoc (y :: l)).2)

/-- multiplication by the variable modulo `X^n - Σ f_i X^i` -/
def mulX (m : Nat) (f l : List Nat) : List Nat :=
  match unsnoc l with
  | (l', t) => axpy m t f (0 :: l')

/-- product modulo `X^n - Σ f_i X^i` -/
def mul (m : Nat) (f a : List Nat) : List Nat → List Nat
  | [] => f.map fun _ => 0
  | c :: b => force (mulX m f (mul m f a b)) fun s => axpy m c a s

/-- `acc^(2^i) * X^(E % 2^i)` -/
def ppow (m : Nat) (f : List Nat) (E : Nat) : Nat → List Nat → List Nat
  | 0, acc => acc
  | i + 1, acc =>
    force (if (E >>> i) % 2 = 1 then mulX m f (mul m f acc acc) else mul m f acc acc) (ppow m f E i)

/-- `X^E` for an exponent with at most 160 binary digits -/
def powX (m : Nat) (f : List Nat) (E : Nat) : List Nat := ppow m f E 160 (1 :: (f.drop 1).map fun _ => 0)

/-! ### correctness -/

section
variable {A : Type*} [Ring A] {m : Nat} (x : A)

/-- the value of a polynomial at `x` (lowest coefficient first) -/
def eval : List Nat → A
  | [] => 0
  | c :: l => (c : A) + x * eval l

theorem eval_commute : ∀ l : List Nat, Commute x (eval x l)
  | [] => Commute.zero_right x
  | c :: l => (Nat.cast_commute c x).symm.add_right ((Commute.refl x).mul_right (eval_commute l))

theorem cast_mod (hm : (m : A) = 0) (a : Nat) : ((a % m : Nat) : A) = a := by
  conv_rhs => rw [← Nat.mod_add_div a m]
  push_cast
  rw [hm, zero_mul, add_zero]

theorem length_axpy (c : Nat) : ∀ xs ys : List Nat, xs.length = ys.length → (axpy m c xs ys).length = xs.length
  | [], _, _ => rfl
  | _ :: _, [], h => by simp at h
  | a :: xs, b :: ys, h => by simp only [axpy, List.length_cons]; rw [length_axpy c xs ys (by simpa using h)]

theorem eval_axpy (hm : (m : A) = 0) (c : Nat) : ∀ xs ys : List Nat, xs.length = ys.length →
    eval x (axpy m c xs ys) = (c : A) * eval x xs + eval x ys
  | [], [], _ => by simp [axpy, eval]
  | [], _ :: _, h => by simp at h
  | _ :: _, [], h => by simp at h
  | a :: xs, b :: ys, h => by
    simp only [axpy, eval]
    rw [cast_mod hm, eval_axpy hm c xs ys (by simpa using h)]
    push_cast
    rw [mul_add, mul_add, ← mul_assoc x, (Nat.cast_commute c x).eq.symm]
    rw [mul_assoc]
    abel

theorem unsnoc_spec : ∀ l : List Nat, l ≠ [] → (unsnoc l).1.length + 1 = l.length ∧
    eval x l = eval x (unsnoc l).1 + ((unsnoc l).2 : A) * x ^ (unsnoc l).1.length
  | [], h => absurd rfl h
  | [a], _ => by simp [unsnoc, eval]
  | a :: b :: l, _ => by
    obtain ⟨h1, h2⟩ := unsnoc_spec (b :: l) (by simp)
    refine ⟨by simp only [unsnoc, List.length_cons] at h1 ⊢; omega, ?_⟩
    rw [eval, h2]
    simp only [unsnoc, List.length_cons, eval]
    rw [mul_add, ← mul_assoc x, (Nat.cast_commute _ x).eq.symm, mul_assoc, ← pow_succ']
    abel

variable {f : List Nat}

theorem length_mulX (hf0 : f ≠ []) {l : List Nat} (hl : l.length = f.length) :
    (mulX m f l).length = f.length := by
  have hne : l ≠ [] := by
    rintro rfl; exact hf0 (List.length_eq_zero_iff.1 hl.symm)
  have h1 := (unsnoc_spec (1 : Int) l hne).1
  unfold mulX
  rw [length_axpy]
  simp only [List.length_cons]; omega

theorem eval_mulX (hm : (m : A) = 0) (hf0 : f ≠ []) (hf : x ^ f.length = eval x f) {l : List Nat}
    (hl : l.length = f.length) : eval x (mulX m f l) = x * eval x l := by
  have hne : l ≠ [] := by
    rintro rfl; exact hf0 (List.length_eq_zero_iff.1 hl.symm)
  obtain ⟨h1, h2⟩ := unsnoc_spec x l hne
  unfold mulX
  rw [eval_axpy x hm _ _ _ (by simp only [List.length_cons]; omega), h2, eval, ← hf, mul_add, Nat.cast_zero,
    zero_add, ← mul_assoc x, (Nat.cast_commute _ x).eq.symm, mul_assoc, ← pow_succ', h1, hl, add_comm]

theorem length_mul (hf0 : f ≠ []) {a : List Nat} (ha : a.length = f.length) : ∀ b : List Nat,
    (mul m f a b).length = f.length
  | [] => by simp [mul]
  | c :: b => by
    rw [mul, force_eq, length_axpy, ha]
    rw [length_mulX hf0 (length_mul hf0 ha b), ha]

theorem eval_map_zero : ∀ l : List Nat, eval x (l.map fun _ => 0) = 0
  | [] => rfl
  | _ :: l => by simp only [List.map_cons, eval]; rw [eval_map_zero l]; simp

theorem eval_mul (hm : (m : A) = 0) (hf0 : f ≠ []) (hf : x ^ f.length = eval x f) {a : List Nat}
    (ha : a.length = f.length) : ∀ b : List Nat, eval x (mul m f a b) = eval x a * eval x b
  | [] => by rw [mul, eval_map_zero, eval, mul_zero]
  | c :: b => by
    rw [mul, force_eq, eval_axpy x hm _ _ _ (by rw [length_mulX hf0 (length_mul hf0 ha b), ha]),
      eval_mulX x hm hf0 hf (length_mul hf0 ha b), eval_mul hm hf0 hf ha b, eval, mul_add, ← mul_assoc,
      (eval_commute x a).eq, mul_assoc, (Nat.cast_commute c (eval x a)).eq]

theorem ppow_spec (hm : (m : A) = 0) (hf0 : f ≠ []) (hf : x ^ f.length = eval x f) (E : Nat) : ∀ (i : Nat)
    (acc : List Nat), acc.length = f.length → (ppow m f E i acc).length = f.length ∧
    eval x (ppow m f E i acc) = eval x acc ^ 2 ^ i * x ^ (E % 2 ^ i)
  | 0, acc, h => by simp [ppow, Nat.mod_one, h]
  | i + 1, acc, h => by
    have hl : (if (E >>> i) % 2 = 1 then mulX m f (mul m f acc acc) else mul m f acc acc).length = f.length := by
      split
      · exact length_mulX hf0 (length_mul hf0 h acc)
      · exact length_mul hf0 h acc
    obtain ⟨h1, h2⟩ := ppow_spec hm hf0 hf E i _ hl
    rw [ppow, force_eq]
    refine ⟨h1, ?_⟩
    rw [h2, mod_two_pow_succ, pow_add _ _ (E % 2 ^ i), ← mul_assoc]
    congr 1
    have h2 : (E >>> i) % 2 = 0 ∨ (E >>> i) % 2 = 1 := by omega
    rcases h2 with h0 | h0
    · rw [h0, if_neg (by omega), Nat.mul_zero, pow_zero, mul_one, eval_mul x hm hf0 hf h, ← pow_two, ← pow_mul,
        ← pow_succ']
    · rw [h0, if_pos rfl, Nat.mul_one, eval_mulX x hm hf0 hf (length_mul hf0 h acc), eval_mul x hm hf0 hf h,
        ← pow_two, (eval_commute x acc).pow_right 2 |>.mul_pow, ← pow_mul, ← pow_succ',
        ((eval_commute x acc).pow_pow _ _).eq]

theorem eval_powX (hm : (m : A) = 0) (hf0 : f ≠ []) (hf : x ^ f.length = eval x f) {E : Nat}
    (hE : E < 2 ^ 160) : (powX m f E).length = f.length ∧ eval x (powX m f E) = x ^ E := by
  have hlen : (1 :: (f.drop 1).map fun _ => 0).length = f.length := by
    have : 0 < f.length := List.length_pos_of_ne_nil hf0
    simp only [List.length_cons, List.length_map, List.length_drop]; omega
  obtain ⟨h1, h2⟩ := ppow_spec x hm hf0 hf E 160 _ hlen
  refine ⟨h1, ?_⟩
  rw [powX, h2, Nat.mod_eq_of_lt hE, eval, eval_map_zero]
  simp

end

end Trng.PowMod
