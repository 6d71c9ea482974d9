import Verif.Proofs.LagFibPeriod

/-! Periods of sequences of words with the recurrence `+`. -/
namespace Trng.LagFib
open LinAlg IntMath Spec Polynomial Gf2

variable {P : Params} {w : Nat}

/-! ### sums and powers of two -/

/-- sum of the products of two different entries -/
def e2 {A : Type} [CommRing A] : List A → A
  | [] => 0
  | a :: l => a * l.sum + e2 l

theorem sq_sum {A : Type} [CommRing A] (l : List A) : l.sum ^ 2 = (l.map (· ^ 2)).sum + 2 * e2 l := by
  induction l with
  | nil => simp [e2]
  | cons a l ih => rw [List.sum_cons, add_sq, ih, List.map_cons, List.sum_cons, e2]; ring

theorem e2_map {A B : Type} [CommRing A] [CommRing B] (φ : A →+* B) (l : List A) : φ (e2 l) = e2 (l.map φ) := by
  induction l with
  | nil => simp [e2]
  | cons a l ih => rw [e2, map_add, map_mul, ih, List.map_cons, e2, map_list_sum]

theorem pow_sum {A : Type} [CommRing A] (l : List A) (k : Nat) :
    (4 : A) ∣ l.sum ^ 2 ^ (k + 1) - ((l.map (· ^ 2 ^ (k + 1))).sum + 2 * e2 (l.map (· ^ 2 ^ k))) := by
  induction k with
  | zero =>
    rw [show 2 ^ (0 + 1) = 2 from rfl, sq_sum, show 2 ^ 0 = 1 from rfl]
    simp
  | succ k ih =>
    obtain ⟨z, hz⟩ := ih
    have hz : l.sum ^ 2 ^ (k + 1) = (l.map (· ^ 2 ^ (k + 1))).sum + 2 * e2 (l.map (· ^ 2 ^ k)) + 4 * z := by
      rw [← hz]; ring
    have hs := sq_sum (l.map (· ^ 2 ^ (k + 1)))
    rw [List.map_map] at hs
    have hc : ((fun x : A => x ^ 2) ∘ fun x => x ^ 2 ^ (k + 1)) = fun x => x ^ 2 ^ (k + 1 + 1) := by
      funext x
      show (x ^ 2 ^ (k + 1)) ^ 2 = _
      rw [← pow_mul, ← pow_succ]
    rw [hc] at hs
    rw [pow_succ 2 (k + 1), pow_mul, hz]
    set S := (l.map (· ^ 2 ^ (k + 1))).sum with hS
    refine ⟨(e2 (l.map (· ^ 2 ^ k)) + 2 * z) ^ 2 + S * (e2 (l.map (· ^ 2 ^ k)) + 2 * z), ?_⟩
    rw [← pow_succ, ← hs]
    ring

/-! ### the polynomial over the integers -/

/-- the polynomial of the recurrence -/
noncomputable def fZ (P : Params) : ℤ[X] := X ^ P.last - ((expos P).map fun e => X ^ e).sum

abbrev c2 : ℤ →+* GF2 := Int.castRingHom GF2

theorem map_sum_X_pow (es : List Nat) :
    ((es.map fun e => (X : ℤ[X]) ^ e).sum).map c2 = (es.map fun e => (X : GF2[X]) ^ e).sum := by
  induction es with
  | nil => simp
  | cons e es ih => rw [List.map_cons, List.sum_cons, Polynomial.map_add, Polynomial.map_pow, map_X, ih, List.map_cons,
      List.sum_cons]

theorem fZ_map : (fZ P).map c2 = fpoly P := by
  rw [fZ, Polynomial.map_sub, Polynomial.map_pow, map_X, map_sum_X_pow, CharTwo.sub_eq_add]
  rfl

theorem c2_eq_zero (n : ℤ) : c2 n = 0 ↔ 2 ∣ n := CharP.intCast_eq_zero_iff GF2 2 n

theorem c2_surjective : Function.Surjective c2 := by
  rintro ⟨_ | _⟩
  · exact ⟨0, map_zero _⟩
  · exact ⟨1, map_one _⟩

theorem even_of_map {p : ℤ[X]} (h : p.map c2 = 0) : ∃ q, p = 2 * q := by
  have : (C (2 : ℤ)) ∣ p := by
    rw [C_dvd_iff_dvd_coeff]
    intro i
    rw [← c2_eq_zero, ← coeff_map, h, coeff_zero]
  obtain ⟨q, hq⟩ := this
  exact ⟨q, by rw [hq]; rfl⟩

/-- reduction modulo 2 -/
noncomputable def mod2 (P : Params) : AdjoinRoot (fZ P) →+* AdjoinRoot (fpoly P) :=
  AdjoinRoot.lift ((AdjoinRoot.of (fpoly P)).comp c2) (AdjoinRoot.root (fpoly P)) (by
    rw [← eval₂_map, fZ_map]
    exact AdjoinRoot.eval₂_root _)

theorem mod2_mk (p : ℤ[X]) : mod2 P (AdjoinRoot.mk (fZ P) p) = AdjoinRoot.mk (fpoly P) (p.map c2) := by
  rw [mod2, AdjoinRoot.lift_mk, ← eval₂_map, ← AdjoinRoot.aeval_eq, aeval_def]
  rfl

theorem mod2_root : mod2 P (AdjoinRoot.root (fZ P)) = AdjoinRoot.root (fpoly P) := by
  rw [← AdjoinRoot.mk_X, mod2_mk, map_X, AdjoinRoot.mk_X]

theorem even_of_mod2 {a : AdjoinRoot (fZ P)} (h : mod2 P a = 0) : ∃ c, a = 2 * c := by
  obtain ⟨p, rfl⟩ := AdjoinRoot.mk_surjective a
  rw [mod2_mk, AdjoinRoot.mk_eq_zero] at h
  obtain ⟨q, hq⟩ := h
  obtain ⟨q', rfl⟩ := map_surjective c2 c2_surjective q
  obtain ⟨g, hg⟩ := even_of_map (p := p - fZ P * q') (by
    rw [Polynomial.map_sub, Polynomial.map_mul, fZ_map, hq, sub_self])
  refine ⟨AdjoinRoot.mk _ g, ?_⟩
  have : p = 2 * g + fZ P * q' := by rw [← hg]; ring
  rw [this, map_add, map_mul, map_mul, AdjoinRoot.mk_self, zero_mul, add_zero]
  rfl

theorem two_torsion (h : Valid P) {a : AdjoinRoot (fZ P)} (ha : 2 * a = 0) : a = 0 := by
  obtain ⟨p, rfl⟩ := AdjoinRoot.mk_surjective a
  have ha : AdjoinRoot.mk (fZ P) (2 * p) = 0 := by rw [map_mul]; exact ha
  rw [AdjoinRoot.mk_eq_zero] at ha
  obtain ⟨q, hq⟩ := ha
  have h1 : fpoly P * q.map c2 = 0 := by
    rw [← fZ_map, ← Polynomial.map_mul, ← hq, Polynomial.map_mul]
    have : (2 : ℤ[X]).map c2 = 0 := by
      rw [show (2 : ℤ[X]) = C 2 from rfl, map_C]
      rw [(c2_eq_zero 2).2 dvd_rfl, map_zero]
    rw [this, zero_mul]
  have h2 : q.map c2 = 0 := (fpoly_monic h).mul_right_eq_zero_iff.1 h1
  obtain ⟨q', rfl⟩ := even_of_map h2
  have h3 : (2 : ℤ[X]) * p = 2 * (fZ P * q') := by rw [hq]; ring
  have h4 : p = fZ P * q' := mul_left_cancel₀ (by norm_num) h3
  rw [h4, map_mul, AdjoinRoot.mk_self, zero_mul]

theorem two_dvd_of_four (h : Valid P) {a : AdjoinRoot (fZ P)} (ha : (4 : AdjoinRoot (fZ P)) ∣ 2 * a) : mod2 P a = 0 := by
  obtain ⟨b, hb⟩ := ha
  have : a - 2 * b = 0 := two_torsion h (by rw [mul_sub, hb]; ring)
  rw [sub_eq_zero.1 this, map_mul]
  have : mod2 P 2 = 0 := by
    have h2 : (2 : AdjoinRoot (fZ P)) = 1 + 1 := by norm_num
    rw [h2, map_add, map_one, ← map_one (AdjoinRoot.mk (fpoly P)), ← map_add, Gf2.add_self, map_zero]
  rw [this, zero_mul]

theorem root_fZ : AdjoinRoot.root (fZ P) ^ P.last = ((expos P).map fun e => AdjoinRoot.root (fZ P) ^ e).sum := by
  have := AdjoinRoot.mk_self (f := fZ P)
  rw [fZ, map_sub, map_pow, map_list_sum, List.map_map, sub_eq_zero, AdjoinRoot.mk_X] at this
  rw [← fZ] at this
  rw [this]
  congr 1

/-! ### the order modulo powers of two -/

theorem charTwo_mk (f : GF2[X]) : (2 : AdjoinRoot f) = 0 := by
  have h2 : (2 : AdjoinRoot f) = 1 + 1 := by norm_num
  rw [h2, ← map_one (AdjoinRoot.mk f), ← map_add, Gf2.add_self, map_zero]

theorem sq_add {f : GF2[X]} (a b : AdjoinRoot f) : (a + b) ^ 2 = a ^ 2 + b ^ 2 := by
  rw [add_sq, charTwo_mk]; ring

theorem sq_list_sum {f : GF2[X]} (l : List (AdjoinRoot f)) : l.sum ^ 2 = (l.map (· ^ 2)).sum := by
  rw [sq_sum, charTwo_mk, zero_mul, add_zero]

theorem sq_e2 {f : GF2[X]} (l : List (AdjoinRoot f)) : e2 l ^ 2 = e2 (l.map (· ^ 2)) := by
  induction l with
  | nil => simp [e2]
  | cons a l ih => rw [e2, sq_add, mul_pow, sq_list_sum, ih, List.map_cons, e2]

/-- the conditions on the lags that make the period double with every bit -/
structure Doubles (P : Params) : Prop where
  one : e2 ((expos P).map fun e => AdjoinRoot.root (fpoly P) ^ e) ≠ 0
  neg : (((expos P).filter fun e => (e + P.last) % 2 = 1).map fun e => (AdjoinRoot.root (fpoly P) ^ e) ^ 2).sum +
    e2 ((expos P).map fun e => AdjoinRoot.root (fpoly P) ^ e) ≠ 0

theorem root_pow_two_pow (hp : Primitive P) :
    AdjoinRoot.root (fpoly P) ^ 2 ^ P.last = AdjoinRoot.root (fpoly P) := by
  have hpos : 0 < 2 ^ P.last := by positivity
  rw [← Nat.sub_add_cancel hpos, pow_succ, ← hp, pow_orderOf_eq_one, one_mul]

theorem isUnit_of_order (h : Valid P) (hp : Primitive P) : IsUnit (AdjoinRoot.root (fpoly P)) := by
  have h2 := h.two_le
  have h4 : 2 ^ 2 ≤ 2 ^ P.last := Nat.pow_le_pow_right (by omega) h2
  refine IsUnit.of_pow_eq_one (n := 2 ^ P.last - 1) ?_ (by omega)
  rw [← hp, pow_orderOf_eq_one]

/-- the terms of the recurrence with a sign, and the mixed term -/
theorem four_dvd (h : Valid P) {ε z : AdjoinRoot (fZ P)}
    (hx : AdjoinRoot.root (fZ P) ^ (2 ^ P.last - 1) = ε + 4 * z) :
    (4 : AdjoinRoot (fZ P)) ∣ (ε * AdjoinRoot.root (fZ P)) ^ P.last -
      ((expos P).map fun e => (ε * AdjoinRoot.root (fZ P)) ^ e).sum -
      2 * e2 ((expos P).map fun e => (AdjoinRoot.root (fZ P) ^ e) ^ 2 ^ (P.last - 1)) := by
  have h2 := h.two_le
  set x := AdjoinRoot.root (fZ P) with hxdef
  have hpos : 0 < 2 ^ P.last := by positivity
  have hN : (4 : AdjoinRoot (fZ P)) ∣ x ^ 2 ^ P.last - ε * x := by
    rw [← Nat.sub_add_cancel hpos, pow_succ, hx]
    exact ⟨z * x, by ring⟩
  have hNe : ∀ e, (4 : AdjoinRoot (fZ P)) ∣ (x ^ e) ^ 2 ^ P.last - (ε * x) ^ e := by
    intro e
    rw [← pow_mul, mul_comm, pow_mul]
    exact hN.trans (sub_dvd_pow_sub_pow _ _ e)
  have hsum : ∀ es : List Nat, (4 : AdjoinRoot (fZ P)) ∣ (es.map fun e => (x ^ e) ^ 2 ^ P.last).sum -
      (es.map fun e => (ε * x) ^ e).sum := by
    intro es
    induction es with
    | nil => simp
    | cons e es ih =>
      rw [List.map_cons, List.sum_cons, List.map_cons, List.sum_cons, add_sub_add_comm]
      exact dvd_add (hNe e) ih
  have key := pow_sum ((expos P).map fun e => x ^ e) (P.last - 1)
  rw [← root_fZ, Nat.sub_add_cancel (by omega : 1 ≤ P.last), List.map_map, List.map_map] at key
  have k1 := hNe P.last
  have k2 := hsum (expos P)
  obtain ⟨a, ha⟩ := key
  obtain ⟨b, hb⟩ := k1
  obtain ⟨c, hc⟩ := k2
  refine ⟨a - b + c, ?_⟩
  have ha' : (x ^ P.last) ^ 2 ^ P.last - (((expos P).map fun e => (x ^ e) ^ 2 ^ P.last).sum +
      2 * e2 ((expos P).map fun e => (x ^ e) ^ 2 ^ (P.last - 1))) = 4 * a := ha
  linear_combination ha' - hb + hc

theorem mod2_e2 (h : Valid P) (hp : Primitive P) :
    mod2 P (e2 ((expos P).map fun e => (AdjoinRoot.root (fZ P) ^ e) ^ 2 ^ (P.last - 1))) ^ 2 =
      e2 ((expos P).map fun e => AdjoinRoot.root (fpoly P) ^ e) := by
  have h2 := h.two_le
  rw [e2_map, sq_e2, List.map_map, List.map_map]
  congr 1
  apply List.map_congr_left
  intro e _
  simp only [Function.comp_apply, map_pow, mod2_root]
  rw [← pow_mul _ (2 ^ (P.last - 1)) 2, ← pow_succ, Nat.sub_add_cancel (by omega : 1 ≤ P.last), ← pow_mul, mul_comm, pow_mul,
    root_pow_two_pow hp]

theorem g_ne_zero (h : Valid P) (hp : Primitive P) (hd : Doubles P) {g : AdjoinRoot (fZ P)}
    (hx : AdjoinRoot.root (fZ P) ^ (2 ^ P.last - 1) = 1 + 2 * g) : mod2 P g ≠ 0 := by
  intro h0
  obtain ⟨c, rfl⟩ := even_of_mod2 h0
  have := four_dvd h (ε := 1) (z := c) (by rw [hx]; ring)
  rw [one_mul, root_fZ, sub_self, zero_sub, dvd_neg] at this
  have := two_dvd_of_four h this
  apply hd.one
  rw [← mod2_e2 h hp, this, zero_pow (by omega)]

theorem sum_signs {A : Type} [CommRing A] (x : A) (L : Nat) (es : List Nat) :
    (es.map fun e => x ^ e).sum - (-1) ^ L * (es.map fun e => (-x) ^ e).sum =
      2 * ((es.filter fun e => (e + L) % 2 = 1).map fun e => x ^ e).sum := by
  induction es with
  | nil => simp
  | cons e es ih =>
    have hs : (-1 : A) ^ L * (-x) ^ e = (-1) ^ (e + L) * x ^ e := by
      rw [neg_pow x, pow_add]; ring
    rw [List.map_cons, List.sum_cons, List.map_cons, List.sum_cons, mul_add, hs, List.filter_cons]
    have h01 : (e + L) % 2 = 0 ∨ (e + L) % 2 = 1 := by omega
    rcases h01 with h0 | h1
    · rw [Even.neg_one_pow (Nat.even_iff.2 h0), if_neg (by simp [h0]), ← ih]; ring
    · rw [Odd.neg_one_pow (Nat.odd_iff.2 h1), if_pos (by simp [h1]), List.map_cons, List.sum_cons, mul_add, ← ih]; ring

theorem g_ne_one (h : Valid P) (hp : Primitive P) (hd : Doubles P) {g : AdjoinRoot (fZ P)}
    (hx : AdjoinRoot.root (fZ P) ^ (2 ^ P.last - 1) = 1 + 2 * g) : mod2 P g ≠ 1 := by
  intro h0
  obtain ⟨c, hc⟩ := even_of_mod2 (P := P) (a := g - 1) (by rw [map_sub, h0, map_one, sub_self])
  have hg : g = 1 + 2 * c := by rw [← hc]; ring
  have := four_dvd h (ε := -1) (z := 1 + c) (by rw [hx, hg]; ring)
  set x := AdjoinRoot.root (fZ P) with hxdef
  set E := e2 ((expos P).map fun e => (x ^ e) ^ 2 ^ (P.last - 1)) with hE
  have hs := sum_signs x P.last (expos P)
  rw [← root_fZ] at hs
  set O := (((expos P).filter fun e => (e + P.last) % 2 = 1).map fun e => x ^ e).sum with hO
  have hone : ((-1 : AdjoinRoot (fZ P)) ^ P.last) * (-1) ^ P.last = 1 := by
    rw [← mul_pow]; simp
  have h4 : (4 : AdjoinRoot (fZ P)) ∣ 2 * (O - (-1) ^ P.last * E) := by
    obtain ⟨a, ha⟩ := this
    refine ⟨(-1) ^ P.last * a, ?_⟩
    have e1 : (-1 * x) ^ P.last = (-1) ^ P.last * x ^ P.last := by rw [mul_pow]
    have e2' : ((expos P).map fun e => (-1 * x) ^ e).sum = ((expos P).map fun e => (-x) ^ e).sum := by
      congr 1
      apply List.map_congr_left
      intro e _
      rw [neg_one_mul]
    rw [e1, e2'] at ha
    have := congrArg (fun u => (-1) ^ P.last * u) ha
    linear_combination this - hs - x ^ P.last * hone
  have h2 := two_dvd_of_four h h4
  rw [map_sub, map_mul, map_pow, map_neg, map_one] at h2
  have hm1 : (-1 : AdjoinRoot (fpoly P)) = 1 := by
    have := charTwo_mk (fpoly P)
    linear_combination -this
  rw [hm1, one_pow, one_mul] at h2
  apply hd.neg
  have h3 : mod2 P O = mod2 P E := sub_eq_zero.1 h2
  have h5 : mod2 P O ^ 2 = (((expos P).filter fun e => (e + P.last) % 2 = 1).map fun e =>
      (AdjoinRoot.root (fpoly P) ^ e) ^ 2).sum := by
    rw [hO, map_list_sum, sq_list_sum, List.map_map, List.map_map]
    congr 1
    apply List.map_congr_left
    intro e _
    simp only [Function.comp_apply, map_pow, hxdef, mod2_root]
  rw [← h5, h3, hE, hxdef, mod2_e2 h hp]
  have := charTwo_mk (fpoly P)
  linear_combination (e2 ((expos P).map fun e => AdjoinRoot.root (fpoly P) ^ e)) * this

/-- `X^(T 2^k)` differs from 1 by a multiple of exactly `2^(k+1)` -/
theorem order_two_pow (h : Valid P) (hp : Primitive P) (hd : Doubles P) (k : Nat) :
    ∃ g, AdjoinRoot.root (fZ P) ^ ((2 ^ P.last - 1) * 2 ^ k) = 1 + 2 ^ (k + 1) * g ∧ mod2 P g ≠ 0 := by
  have h2 := h.two_le
  obtain ⟨g, hg⟩ := even_of_mod2 (P := P) (a := AdjoinRoot.root (fZ P) ^ (2 ^ P.last - 1) - 1) (by
    rw [map_sub, map_pow, mod2_root, map_one, ← hp, pow_orderOf_eq_one, sub_self])
  have hg : AdjoinRoot.root (fZ P) ^ (2 ^ P.last - 1) = 1 + 2 * g := by rw [← hg]; ring
  have n0 := g_ne_zero h hp hd hg
  have n1 := g_ne_one h hp hd hg
  have hz2 : mod2 P 2 = 0 := by rw [map_ofNat, charTwo_mk]
  -- from the second step on
  have step : ∀ k, ∃ g', AdjoinRoot.root (fZ P) ^ ((2 ^ P.last - 1) * 2 ^ (k + 1)) = 1 + 2 ^ (k + 1 + 1) * g' ∧
      mod2 P g' = mod2 P (g * (1 + g)) := by
    intro k
    induction k with
    | zero => exact ⟨g * (1 + g), by rw [Nat.zero_add, pow_one, pow_mul, hg]; ring, rfl⟩
    | succ k ih =>
      obtain ⟨g', e1, e2⟩ := ih
      refine ⟨g' + 2 * (2 ^ k * g' ^ 2), ?_, ?_⟩
      · rw [pow_succ 2 (k + 1), ← mul_assoc, pow_mul, e1]
        ring
      · rw [map_add, map_mul, hz2, zero_mul, add_zero, e2]
  cases k with
  | zero => exact ⟨g, by rw [pow_zero, mul_one, hg, Nat.zero_add, pow_one], n0⟩
  | succ k =>
    obtain ⟨g', e1, e2⟩ := step k
    refine ⟨g', e1, ?_⟩
    rw [e2, map_mul, map_add, map_one]
    have n2 : 1 + mod2 P g ≠ 0 := by
      intro hc
      apply n1
      have := charTwo_mk (fpoly P)
      linear_combination hc - this
    obtain ⟨i, hi⟩ := eq_pow_of_order (fpoly_monic h) (fpoly_natDegree h) (by omega) hp _ n0
    obtain ⟨j, hj⟩ := eq_pow_of_order (fpoly_monic h) (fpoly_natDegree h) (by omega) hp _ n2
    rw [hj, hi, ← pow_add]
    have hu := isUnit_of_order h hp
    have : Nontrivial (AdjoinRoot (fpoly P)) := ⟨⟨_, _, n1⟩⟩
    exact (hu.pow _).ne_zero

/-! ### sequences of words -/

/-- the shift of sequences of words -/
def shiftW (w : Nat) : Module.End ℤ (Nat → BitVec w) where
  toFun y t := y (t + 1)
  map_add' _ _ := rfl
  map_smul' _ _ := rfl

theorem shiftW_pow (i : Nat) (y : Nat → BitVec w) : (shiftW w ^ i) y = fun t => y (t + i) := by
  induction i generalizing y with
  | zero => rfl
  | succ i ih =>
    rw [pow_succ, Module.End.mul_apply, ih]
    funext t
    show y (t + i + 1) = _
    rw [Nat.add_assoc]

theorem aeval_X_pow_shiftW (i : Nat) (y : Nat → BitVec w) : aeval (shiftW w) (X ^ i : ℤ[X]) y = fun t => y (t + i) := by
  rw [aeval_X_pow, shiftW_pow]

/-- sequences of words with the recurrence -/
def SolW (P : Params) (y : Nat → BitVec w) : Prop :=
  ∀ t, y (t + P.last) = (P.all.map fun l => y (t + P.last - l)).sum

theorem SolW.aeval (h : Valid P) {y : Nat → BitVec w} (hy : SolW P y) : Polynomial.aeval (shiftW w) (fZ P) y = 0 := by
  funext t
  have key : ∀ es : List Nat, Polynomial.aeval (shiftW w) ((es.map fun e => (X : ℤ[X]) ^ e).sum) y t =
      (es.map fun e => y (t + e)).sum := by
    intro es
    induction es with
    | nil => simp
    | cons e es ih =>
      rw [List.map_cons, List.sum_cons, map_add, LinearMap.add_apply, aeval_X_pow_shiftW, Pi.add_apply, ih,
        List.map_cons, List.sum_cons]
  rw [fZ, map_sub, LinearMap.sub_apply, Pi.sub_apply, key, aeval_X_pow_shiftW]
  show y (t + P.last) - _ = 0
  rw [hy t, expos, List.map_map]
  have : (P.all.map fun l => y (t + P.last - l)) = P.all.map ((fun e => y (t + e)) ∘ fun x => P.last - x) := by
    apply List.map_congr_left
    intro l hl
    have := all_range h hl
    show _ = y (t + (P.last - l))
    congr 1
    omega
  rw [this, sub_self]

theorem SolW.act (h : Valid P) {y : Nat → BitVec w} (hy : SolW P y) {p q : ℤ[X]}
    (hpq : AdjoinRoot.mk (fZ P) p = AdjoinRoot.mk (fZ P) q) : Polynomial.aeval (shiftW w) p y = Polynomial.aeval (shiftW w) q y := by
  obtain ⟨g, hg⟩ := AdjoinRoot.mk_eq_mk.1 hpq
  have : p = q + g * fZ P := by rw [mul_comm, ← hg]; ring
  rw [this, map_add, map_mul, LinearMap.add_apply, Module.End.mul_apply, hy.aeval h, map_zero, add_zero]

/-- lowest bits -/
def bit0Hom (w : Nat) : BitVec w →+ GF2 := ⟨⟨bit 0, bit_zero 0⟩, bit_zero_add⟩

theorem bit0_aeval (p : ℤ[X]) (y : Nat → BitVec w) (t : Nat) :
    bit 0 (Polynomial.aeval (shiftW w) p y t) = Polynomial.aeval shiftOp (p.map c2) (fun t => bit 0 (y t)) t := by
  induction p using Polynomial.induction_on' with
  | add p q hp hq =>
    rw [map_add, LinearMap.add_apply, Pi.add_apply, bit_zero_add, hp, hq, Polynomial.map_add, map_add,
      LinearMap.add_apply, Pi.add_apply]
  | monomial n a =>
    rw [← C_mul_X_pow_eq_monomial, map_mul, Module.End.mul_apply, aeval_X_pow_shiftW, aeval_C, Polynomial.map_mul,
      Polynomial.map_pow, map_X, map_C, map_mul, Module.End.mul_apply, aeval_X_pow_shift, aeval_C]
    show bit 0 (a • y (t + n)) = c2 a • bit 0 (y (t + n))
    have := map_zsmul (bit0Hom w) a (y (t + n))
    rw [show bit 0 (a • y (t + n)) = bit0Hom w (a • y (t + n)) from rfl, this, zsmul_eq_mul]
    rfl

theorem SolW.bit0 {y : Nat → BitVec w} (hy : SolW P y) : Sol P fun t => bit 0 (y t) := by
  intro t
  show bit 0 (y (t + P.last)) = _
  rw [hy t, bit_zero_sum, List.map_map]
  rfl

theorem two_pow_smul_eq (k : Nat) (x : BitVec w) : ((2 : ℤ) ^ k) • x = BitVec.ofNat w (2 ^ k * x.toNat) := by
  rw [zsmul_eq_mul]
  apply BitVec.eq_of_toNat_eq
  push_cast
  rw [show (2 : BitVec w) ^ k = BitVec.ofNat w (2 ^ k) by
    rw [← BitVec.natCast_eq_ofNat]; push_cast; rfl]
  rw [BitVec.toNat_mul, BitVec.toNat_ofNat, BitVec.toNat_ofNat, Nat.mod_mul_mod]

/-- what `T 2^k` steps do -/
theorem SolW.steps (h : Valid P) (hp : Primitive P) (hd : Doubles P) {y : Nat → BitVec w} (hy : SolW P y) (k : Nat) :
    ∃ z : Nat → BitVec w, (∀ t, y (t + (2 ^ P.last - 1) * 2 ^ k) = y t + BitVec.ofNat w (2 ^ (k + 1) * (z t).toNat)) ∧
      ((∀ t, bit 0 (z t) = 0) → ∀ t, bit 0 (y t) = 0) := by
  obtain ⟨g, hg, hne⟩ := order_two_pow h hp hd k
  obtain ⟨p, rfl⟩ := AdjoinRoot.mk_surjective g
  rw [mod2_mk] at hne
  refine ⟨Polynomial.aeval (shiftW w) p y, fun t => ?_, fun h0 => ?_⟩
  · have e : AdjoinRoot.mk (fZ P) (X ^ ((2 ^ P.last - 1) * 2 ^ k)) = AdjoinRoot.mk (fZ P) (1 + C (2 ^ (k + 1)) * p) := by
      rw [map_pow, AdjoinRoot.mk_X, hg, map_add, map_one, map_mul]
      congr 2
      rw [map_pow, map_pow]
      rfl
    have := congrFun (hy.act h e) t
    rw [aeval_X_pow_shiftW, map_add, map_one, map_mul, aeval_C] at this
    refine this.trans ?_
    show y t + ((2 : ℤ) ^ (k + 1)) • _ = _
    rw [two_pow_smul_eq]
    rfl
  · exact hy.bit0.zero_of_aeval h hp hne (fun t => by rw [← bit0_aeval]; exact h0 t)

theorem SolW.period (h : Valid P) (hp : Primitive P) (hd : Doubles P) {y : Nat → BitVec w} (hy : SolW P y) (hw : 1 ≤ w)
    (t : Nat) : y (t + (2 ^ P.last - 1) * 2 ^ (w - 1)) = y t := by
  obtain ⟨z, hz, -⟩ := hy.steps h hp hd (w - 1)
  rw [hz, Nat.sub_add_cancel hw]
  have : BitVec.ofNat w (2 ^ w * (z t).toNat) = 0 := by
    apply BitVec.eq_of_toNat_eq
    rw [BitVec.toNat_ofNat, Nat.mul_mod_right]
    rfl
  rw [this, add_zero]

theorem SolW.half (h : Valid P) (hp : Primitive P) (hd : Doubles P) {y : Nat → BitVec w} (hy : SolW P y) (hw : 2 ≤ w)
    (hper : ∀ t, y (t + (2 ^ P.last - 1) * 2 ^ (w - 2)) = y t) (t : Nat) : bit 0 (y t) = 0 := by
  obtain ⟨z, hz, h0⟩ := hy.steps h hp hd (w - 2)
  refine h0 (fun t => ?_) t
  have e := hz t
  rw [hper] at e
  have e : BitVec.ofNat w (2 ^ (w - 2 + 1) * (z t).toNat) = 0 := by
    have := sub_eq_zero.2 e
    rw [sub_add_cancel_left, neg_eq_zero] at this
    exact this
  have e := congrArg BitVec.toNat e
  rw [BitVec.toNat_ofNat, show (0 : BitVec w).toNat = 0 from BitVec.toNat_zero] at e
  obtain ⟨m, hm⟩ := Nat.dvd_of_mod_eq_zero e
  have hw2 : 2 ^ w = 2 ^ (w - 2 + 1) * 2 := by rw [← pow_succ]; congr 1; omega
  rw [hw2, mul_assoc] at hm
  have hm := Nat.eq_of_mul_eq_mul_left (by positivity) hm
  apply GF2.ext
  rw [LinAlg.GF2.zero_value]
  show (z t).getLsbD 0 = false
  rw [BitVec.getLsbD, hm]
  simp

/-- multiples of periods -/
theorem mul_period {α : Type} {y : Nat → α} {d : Nat} (h : ∀ t, y (t + d) = y t) (j t : Nat) : y (t + d * j) = y t := by
  induction j with
  | zero => simp
  | succ j ih => rw [Nat.mul_succ, ← Nat.add_assoc, h, ih]

theorem gcd_period {α : Type} {y : Nat → α} {a b : Nat} (ha : ∀ t, y (t + a) = y t) (hb : ∀ t, y (t + b) = y t) (ha0 : 0 < a) (hb0 : 0 < b)
    (t : Nat) : y (t + Nat.gcd a b) = y t := by
  obtain ⟨u, v, huv⟩ : ∃ u v, a * u = Nat.gcd a b + b * v := by
    rcases Nat.lt_or_ge (Nat.gcd a b) b with hlt | hge
    · obtain ⟨m, hm⟩ := Nat.exists_mul_mod_eq_gcd hlt
      refine ⟨m, a * m / b, ?_⟩
      have := Nat.div_add_mod (a * m) b
      omega
    · refine ⟨b, a - 1, ?_⟩
      have hge : Nat.gcd a b = b := le_antisymm (Nat.le_of_dvd hb0 (Nat.gcd_dvd_right a b)) hge
      rw [hge]
      rw [mul_comm a b]
      obtain ⟨c, rfl⟩ : ∃ c, a = c + 1 := ⟨a - 1, by omega⟩
      rw [Nat.add_sub_cancel]; ring
  have h1 := mul_period ha u t
  rw [huv, ← Nat.add_assoc] at h1
  rw [mul_period hb v (t + Nat.gcd a b)] at h1
  exact h1

/-- the values returned by an engine with `+` -/
theorem plus_period (h : Valid P) (hp : Primitive P) (hd : Doubles P) (hop : P.op = .plus) (e : LagFib P w) {i : Nat}
    (hi : i < P.last) {v : BitVec w} (hv : e.read ((e.index - BitVec.ofNat 32 i) &&& P.mask) = some v)
    (hodd : v.getLsbD 0 = true) : ExactOutputPeriod call e (2 ^ (w - 1) * (2 ^ P.last - 1)) := by
  have h2 := h.two_le
  have hls := last_lt_size h
  have h4 : 2 ^ 2 ≤ 2 ^ P.last := Nat.pow_le_pow_right (by omega) h2
  have hw : 1 ≤ w := by
    rcases Nat.eq_zero_or_pos w with h0 | h0
    · subst h0; simp [BitVec.eq_nil v] at hodd
    · exact h0
  set T := 2 ^ P.last - 1 with hT
  have hT0 : 0 < T := by omega
  have hpw : 0 < 2 ^ (w - 1) := by positivity
  -- the values
  have hsol : SolW P fun k => seqOf h e (P.size + k) := by
    intro t
    simp only
    rw [seqOf_rec, hop, comb_plus_sum]
    congr 1
    apply List.map_congr_left
    intro l hl
    have := all_range h hl
    congr 1
    omega
  have hne : ∃ t, bit 0 (seqOf h e (P.size + t)) ≠ 0 := by
    by_contra hc
    push Not at hc
    obtain ⟨t, ht⟩ := exists_seqOf h e hi hv hodd
    apply ht
    refine (sol_seqOf h e 0 (fun _ => rfl)).zero_of_tail h P.last (fun t => ?_) t
    rw [show t + P.last + (P.size - P.last) = P.size + t by omega]
    exact hc t
  have hnth : ∀ k, nth call e k = some (seqOf h e (P.size + k)) := nth_eq h e
  have hfull : ∀ k, seqOf h e (P.size + (k + T * 2 ^ (w - 1))) = seqOf h e (P.size + k) :=
    hsol.period h hp hd hw
  refine ⟨Nat.mul_pos hpw hT0, fun k => ?_, fun t ht hlt => ?_⟩
  · rw [hnth, hnth, mul_comm, hfull]
  · by_contra hc
    push Not at hc
    have hper : ∀ k, seqOf h e (P.size + (k + t)) = seqOf h e (P.size + k) := by
      intro k
      have := hc k
      rw [hnth, hnth] at this
      exact Option.some.inj this
    -- `T` divides the period of the lowest bits
    have hTt : T ∣ t := by
      refine (hsol.bit0.period_iff h hp hne t).1 fun k => ?_
      rw [hper]
    have hg := gcd_period (y := fun k => seqOf h e (P.size + k)) hper hfull ht (Nat.mul_pos hT0 hpw)
    obtain ⟨q, hq⟩ : T ∣ Nat.gcd t (T * 2 ^ (w - 1)) := Nat.dvd_gcd hTt (Nat.dvd_mul_right _ _)
    have hq2 : q ∣ 2 ^ (w - 1) := by
      have : T * q ∣ T * 2 ^ (w - 1) := by rw [← hq]; exact Nat.gcd_dvd_right _ _
      exact Nat.dvd_of_mul_dvd_mul_left hT0 this
    obtain ⟨j, hj, rfl⟩ := (Nat.dvd_prime_pow Nat.prime_two).1 hq2
    rcases Nat.lt_or_ge j (w - 1) with hj1 | hj1
    · have hhalf : ∀ k, seqOf h e (P.size + (k + T * 2 ^ (w - 2))) = seqOf h e (P.size + k) := by
        intro k
        have := mul_period (y := fun k => seqOf h e (P.size + k)) hg (2 ^ (w - 2 - j)) k
        rw [hq, mul_assoc, ← pow_add, show j + (w - 2 - j) = w - 2 by omega] at this
        exact this
      obtain ⟨k, hk⟩ := hne
      exact hk (hsol.half h hp hd (by omega) hhalf k)
    · have hj2 : j = w - 1 := by omega
      have h1 : T * 2 ^ (w - 1) ∣ t := by rw [← hj2, ← hq]; exact Nat.gcd_dvd_left _ _
      have := Nat.le_of_dvd ht h1
      rw [mul_comm] at this
      omega

/-! ### checking the conditions -/

/-- `e2` of powers of `X` -/
def e2N : List Nat → Nat
  | [] => 0
  | e :: es => es.foldr (fun e' a => 2 ^ (e + e') ^^^ a) (e2N es)

/-- squares of some powers of `X` -/
def oddN (L : Nat) (es : List Nat) : Nat :=
  (es.filter fun e => (e + L) % 2 = 1).foldr (fun e a => 2 ^ (2 * e) ^^^ a) 0

theorem mk_e2N {f : GF2[X]} (es : List Nat) :
    AdjoinRoot.mk f (toPoly (e2N es)) = e2 (es.map fun e => AdjoinRoot.root f ^ e) := by
  induction es with
  | nil => rw [e2N, toPoly_zero, map_zero]; rfl
  | cons e es ih =>
    rw [e2N, List.map_cons, e2, ← ih]
    have : ∀ (l : List Nat) (s : Nat), AdjoinRoot.mk f (toPoly (l.foldr (fun e' a => 2 ^ (e + e') ^^^ a) s)) =
        AdjoinRoot.root f ^ e * (l.map fun e => AdjoinRoot.root f ^ e).sum + AdjoinRoot.mk f (toPoly s) := by
      intro l s
      induction l with
      | nil => simp
      | cons a l ihl =>
        rw [List.foldr_cons, toPoly_xor, map_add, ihl, toPoly_two_pow, map_pow, AdjoinRoot.mk_X, List.map_cons,
          List.sum_cons, pow_add]
        ring
    exact this es _

theorem mk_oddN {f : GF2[X]} (L : Nat) (es : List Nat) :
    AdjoinRoot.mk f (toPoly (oddN L es)) =
      ((es.filter fun e => (e + L) % 2 = 1).map fun e => (AdjoinRoot.root f ^ e) ^ 2).sum := by
  rw [oddN]
  generalize es.filter _ = l
  induction l with
  | nil => rw [List.foldr_nil, toPoly_zero, map_zero]; rfl
  | cons a l ih =>
    rw [List.foldr_cons, toPoly_xor, map_add, ih, toPoly_two_pow, map_pow, AdjoinRoot.mk_X, List.map_cons,
      List.sum_cons, mul_comm 2 a, pow_mul]

/-- both conditions -/
noncomputable def doubleCheck (L : Nat) (es : List Nat) (K : Nat) : Bool :=
  let a := red L es K (e2N es)
  let b := red L es K (oddN L es ^^^ e2N es)
  decide (a ≠ 0) && decide (a < 2 ^ L) && decide (b ≠ 0) && decide (b < 2 ^ L)

theorem doubles_of_check (h : Valid P) {L K : Nat} {es : List Nat} (hL : P.last = L) (he : expos P = es)
    (hc : doubleCheck L es K = true) : Doubles P := by
  subst hL he
  simp only [doubleCheck, Bool.and_eq_true, decide_eq_true_eq] at hc
  obtain ⟨⟨⟨a0, a1⟩, b0⟩, b1⟩ := hc
  constructor
  · rw [← mk_e2N, fpoly, ← mk_red P.last (expos P) K]
    exact mk_toPoly_ne_zero (fpoly_monic h) (fpoly_natDegree h) a1 a0
  · rw [← mk_e2N, ← mk_oddN, ← map_add, ← toPoly_xor, fpoly, ← mk_red P.last (expos P) K]
    exact mk_toPoly_ne_zero (fpoly_monic h) (fpoly_natDegree h) b1 b0

end Trng.LagFib
