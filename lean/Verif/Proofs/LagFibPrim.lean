import Verif.Proofs.LagFibPeriod
import Verif.Proofs.Mersenne

/-! How primitivity of the polynomials of the recurrences is checked. -/
namespace Trng.LagFib
open LinAlg IntMath Spec Polynomial Gf2

variable {P : Params}

theorem fpoly_coeff_zero (h : Valid P) : (fpoly P).coeff 0 = 1 := by
  have h2 := h.two_le
  rw [fpoly, sparse, coeff_add, coeff_X_pow, if_neg (by omega), zero_add, expos, Params.all, List.map_append,
    List.map_append, List.sum_append, coeff_add]
  have : ∀ l : List Nat, (∀ x ∈ l, 1 ≤ x ∧ x < P.last) →
      (((l.map (P.last - ·)).map fun e => (X : GF2[X]) ^ e).sum).coeff 0 = 0 := by
    intro l hl
    induction l with
    | nil => rfl
    | cons a l ih =>
      rw [List.map_cons, List.map_cons, List.sum_cons, coeff_add, ih fun x hx => hl x (List.mem_cons_of_mem _ hx),
        coeff_X_pow, if_neg, add_zero]
      have := hl a List.mem_cons_self
      omega
  rw [this _ h.range, zero_add]
  simp

/-- `X^(2^n)` is `a` modulo the polynomial -/
structure Frob (L : Nat) (es : List Nat) (n a : Nat) : Prop where
  eq : AdjoinRoot.root (sparse L es) ^ 2 ^ n = AdjoinRoot.mk (sparse L es) (toPoly a)

/-- one part of the computation of `X^(2^L)` -/
theorem Frob.step {es : List Nat} {L J K n k a b : Nat} (hm : masksOk J = true) (hn : Frob L es n a)
    (hc : xpow J (red L es K) 0 k a = some b) : Frob L es (n + k) b := by
  have := mk_xpow hm (mk_red L es K) 0 k a b hc
  rw [Nat.zero_mod, pow_zero, mul_one, ← hn.eq, ← pow_mul, ← pow_add] at this
  exact ⟨this.symm⟩

theorem Frob.zero (L : Nat) (es : List Nat) : Frob L es 0 2 := by
  constructor
  rw [show (2 : Nat) = 2 ^ 1 from rfl, toPoly_two_pow, pow_zero, pow_one, pow_one, AdjoinRoot.mk_X]

theorem mk_sum_X_pow {f : GF2[X]} (es : List Nat) :
    AdjoinRoot.mk f ((es.map fun e => X ^ e).sum) = (es.map fun e => AdjoinRoot.root f ^ e).sum := by
  rw [map_list_sum, List.map_map]
  congr 1

theorem root_sparse (L : Nat) (es : List Nat) :
    AdjoinRoot.root (sparse L es) ^ L + (es.map fun e => AdjoinRoot.root (sparse L es) ^ e).sum = 0 := by
  have := AdjoinRoot.mk_self (f := sparse L es)
  rw [sparse, map_add, map_pow, AdjoinRoot.mk_X, mk_sum_X_pow] at this
  exact this

theorem eval₂_sparse {A : Type} [CommRing A] (i : GF2 →+* A) (x : A) (L : Nat) (es : List Nat) :
    eval₂ i x (sparse L es) = x ^ L + (es.map fun e => x ^ e).sum := by
  rw [sparse, eval₂_add, eval₂_pow, eval₂_X]
  congr 1
  induction es with
  | nil => simp
  | cons e es ih => rw [List.map_cons, List.sum_cons, eval₂_add, eval₂_pow, eval₂_X, ih, List.map_cons, List.sum_cons]

/-- the polynomial read backwards -/
theorem root_pow_of_reversed (h : Valid P) (d : Nat)
    (hd : AdjoinRoot.root (sparse P.last (P.lags ++ [0])) ^ d = 1) : AdjoinRoot.root (fpoly P) ^ d = 1 := by
  obtain ⟨u, hu⟩ := isUnit_root (fpoly_coeff_zero h)
  have hr := root_sparse P.last (expos P)
  change AdjoinRoot.root (fpoly P) ^ P.last + ((expos P).map fun e => AdjoinRoot.root (fpoly P) ^ e).sum = 0 at hr
  -- the inverse is a root of the reversed polynomial
  have key : (eval₂ (AdjoinRoot.of (fpoly P)) (↑u⁻¹ : AdjoinRoot (fpoly P)) (sparse P.last (P.lags ++ [0]))) = 0 := by
    rw [eval₂_sparse]
    have hinv : ∀ l, l ≤ P.last → (↑u⁻¹ : AdjoinRoot (fpoly P)) ^ l = (↑u⁻¹) ^ P.last * AdjoinRoot.root (fpoly P) ^ (P.last - l) := by
      intro l hl
      rw [← hu]
      have : P.last = l + (P.last - l) := by omega
      conv_rhs => rw [this, pow_add, Nat.add_sub_cancel_left, mul_assoc, ← mul_pow, Units.inv_mul, one_pow, mul_one]
    have hsum : ((P.lags ++ [0]).map fun e => (↑u⁻¹ : AdjoinRoot (fpoly P)) ^ e).sum =
        (↑u⁻¹ : AdjoinRoot (fpoly P)) ^ P.last * (((P.lags ++ [0]).map fun l => AdjoinRoot.root (fpoly P) ^ (P.last - l)).sum) := by
      rw [← List.sum_map_mul_left]
      congr 1
      apply List.map_congr_left
      intro l hl
      apply hinv
      rcases List.mem_append.1 hl with hl | hl
      · exact (h.range l hl).2.le
      · rw [List.mem_singleton] at hl; omega
    rw [hsum, ← mul_one_add]
    rw [expos, Params.all, List.map_append, List.map_append, List.sum_append, List.map_map] at hr
    rw [List.map_append, List.sum_append]
    simp only [List.map_cons, List.map_nil, List.sum_cons, List.sum_nil, Nat.sub_self, pow_zero, add_zero, Nat.sub_zero] at hr ⊢
    have : (1 : AdjoinRoot (fpoly P)) + ((P.lags.map fun l => AdjoinRoot.root (fpoly P) ^ (P.last - l)).sum +
        AdjoinRoot.root (fpoly P) ^ P.last) = 0 := by
      rw [← hr]
      rw [show (fun l => AdjoinRoot.root (fpoly P) ^ (P.last - l)) =
        ((fun e => AdjoinRoot.root (fpoly P) ^ e) ∘ fun x => P.last - x) from rfl]
      ring
    rw [this, mul_zero]
  have hl := AdjoinRoot.lift_root (h := key)
  have := congrArg (AdjoinRoot.lift _ _ key) hd
  rw [map_pow, hl, map_one, ← Units.val_pow_eq_pow_val, ← Units.val_one, Units.val_inj, inv_pow, inv_eq_one] at this
  rw [← hu, ← Units.val_pow_eq_pow_val, this, Units.val_one]

theorem reversed_pow (h : Valid P) {n : Nat} (hn : n = P.last) (hc : Frob P.last (P.lags ++ [0]) n 2) :
    AdjoinRoot.root (sparse P.last (P.lags ++ [0])) ^ (2 ^ P.last - 1) = 1 := by
  subst hn
  have h2 := h.two_le
  have hz := (Frob.zero P.last (P.lags ++ [0])).eq
  rw [pow_zero, pow_one] at hz
  refine root_pow_card ?_ (hc.eq.trans hz.symm)
  rw [sparse, coeff_add, coeff_X_pow, if_neg (by omega), zero_add, List.map_append, List.sum_append, coeff_add]
  have : ∀ l : List Nat, (∀ x ∈ l, 1 ≤ x ∧ x < P.last) → ((l.map fun e => (X : GF2[X]) ^ e).sum).coeff 0 = 0 := by
    intro l hl
    induction l with
    | nil => rfl
    | cons a l ih =>
      rw [List.map_cons, List.sum_cons, coeff_add, ih fun x hx => hl x (List.mem_cons_of_mem _ hx), coeff_X_pow, if_neg, add_zero]
      have := hl a List.mem_cons_self
      omega
  rw [this _ h.range, zero_add]
  simp

theorem primitive_of_prime (h : Valid P) {L n : Nat} {es : List Nat} (hL : P.last = L) (he : P.lags ++ [0] = es)
    (hp : (2 ^ L - 1).Prime) (hn : n = L) (hc : Frob L es n 2) : Primitive P := by
  subst hL he
  have hpos : 0 < 2 ^ P.last := by positivity
  refine order_of_prime (fpoly_monic h) (fpoly_natDegree h) h.two_le (fpoly_coeff_zero h) ?_ hp
  have := root_pow_of_reversed h _ (reversed_pow h hn hc)
  rw [← Nat.sub_add_cancel hpos, pow_succ, this, one_mul]

/-- the powers `X^((2^L-1)/q)` are not 1 -/
noncomputable def facCheck (L : Nat) (es fs : List Nat) (J K : Nat) : Bool :=
  fs.all fun q => match xpow J (red L es K) ((2 ^ L - 1) / q) L 1 with
    | some r => decide (r < 2 ^ L) && decide (r ≠ 1)
    | none => false

theorem primitive_of_factors (h : Valid P) {J K L : Nat} {es : List Nat} (hL : P.last = L) (he : expos P = es)
    {fs : List Nat} (hfs : ∀ q ∈ fs, q.Prime) (hprod : fs.prod = 2 ^ L - 1) (hm : masksOk J = true)
    (hc : xpow J (red L es K) 0 L 2 = some 2) (hf : facCheck L es fs J K = true) : Primitive P := by
  subst hL he
  have hr := (Frob.step hm (Frob.zero _ _) hc).eq
  rw [Nat.zero_add, ← (Frob.zero _ _).eq, pow_zero, pow_one] at hr
  refine order_of_factors (fpoly_monic h) (fpoly_natDegree h) h.two_le (fpoly_coeff_zero h) hr
    fs hfs hprod (fun q hq => ?_)
  have := List.all_eq_true.1 hf q hq
  cases hx : xpow J (red P.last (expos P) K) ((2 ^ P.last - 1) / q) P.last 1 with
  | none => rw [hx] at this; simp at this
  | some r =>
    rw [hx] at this
    simp only [Bool.and_eq_true, decide_eq_true_eq] at this
    refine ⟨r, this.1, this.2, ?_⟩
    have e := mk_xpow hm (mk_red P.last (expos P) K) _ _ _ _ hx
    have hq1 : (2 ^ P.last - 1) / q < 2 ^ P.last := by
      have h1 := Nat.div_le_self (2 ^ P.last - 1) q
      have h2 : 0 < 2 ^ P.last := by positivity
      omega
    rw [toPoly_one, map_one, one_pow, one_mul, Nat.mod_eq_of_lt hq1, AdjoinRoot.mk_X] at e
    exact e

end Trng.LagFib
