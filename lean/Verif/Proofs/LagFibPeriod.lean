import Verif.Proofs.LagFibOne
import Verif.Proofs.Gf2Field

/-! Periods of bit sequences with the recurrence. -/
namespace Trng.LagFib
open LinAlg IntMath Spec Polynomial Gf2

variable {P : Params} {w : Nat}

/-- exponents of the polynomial of the recurrence -/
def expos (P : Params) : List Nat := P.all.map (P.last - ·)

/-- the polynomial of the recurrence, modulo 2 -/
noncomputable def fpoly (P : Params) : GF2[X] := sparse P.last (expos P)

theorem expos_lt (h : Valid P) : ∀ e ∈ expos P, e < P.last := by
  intro e he
  obtain ⟨l, hl, rfl⟩ := List.mem_map.1 he
  have := all_range h hl
  omega

theorem degree_sum_lt {L : Nat} (es : List Nat) (h : ∀ e ∈ es, e < L) :
    ((es.map fun e => (X : GF2[X]) ^ e).sum).degree < L := by
  induction es with
  | nil => rw [List.map_nil, List.sum_nil, degree_zero]; exact WithBot.bot_lt_coe L
  | cons e es ih =>
    rw [List.map_cons, List.sum_cons]
    refine lt_of_le_of_lt (degree_add_le _ _) (max_lt ?_ (ih fun e he => h e (List.mem_cons_of_mem _ he)))
    rw [degree_X_pow]
    exact_mod_cast h e List.mem_cons_self

theorem sparse_monic {L : Nat} (es : List Nat) (h : ∀ e ∈ es, e < L) : (sparse L es).Monic :=
  monic_X_pow_add (degree_sum_lt es h)

theorem sparse_natDegree {L : Nat} (es : List Nat) (h : ∀ e ∈ es, e < L) : (sparse L es).natDegree = L := by
  apply natDegree_eq_of_degree_eq_some
  rw [sparse, degree_add_eq_left_of_degree_lt, degree_X_pow]
  rw [degree_X_pow]; exact degree_sum_lt es h

theorem fpoly_monic (h : Valid P) : (fpoly P).Monic := sparse_monic _ (expos_lt h)
theorem fpoly_natDegree (h : Valid P) : (fpoly P).natDegree = P.last := sparse_natDegree _ (expos_lt h)

/-- the shift of sequences -/
def shiftOp : Module.End GF2 (Nat → GF2) where
  toFun y t := y (t + 1)
  map_add' _ _ := rfl
  map_smul' _ _ := rfl

theorem shiftOp_pow (i : Nat) (y : Nat → GF2) : (shiftOp ^ i) y = fun t => y (t + i) := by
  induction i generalizing y with
  | zero => rfl
  | succ i ih =>
    rw [pow_succ, Module.End.mul_apply, ih]
    funext t
    show y (t + i + 1) = _
    rw [Nat.add_assoc]

theorem aeval_X_pow_shift (i : Nat) (y : Nat → GF2) : aeval shiftOp (X ^ i : GF2[X]) y = fun t => y (t + i) := by
  rw [aeval_X_pow, shiftOp_pow]

theorem aeval_sparse (L : Nat) (es : List Nat) (y : Nat → GF2) (t : Nat) :
    aeval shiftOp (sparse L es) y t = y (t + L) + (es.map fun e => y (t + e)).sum := by
  rw [sparse, map_add, LinearMap.add_apply, aeval_X_pow_shift, Pi.add_apply]
  congr 1
  induction es with
  | nil => simp
  | cons e es ih =>
    rw [List.map_cons, List.sum_cons, map_add, LinearMap.add_apply, aeval_X_pow_shift, Pi.add_apply, ih,
      List.map_cons, List.sum_cons]

theorem Sol.aeval (h : Valid P) {y : Nat → GF2} (hy : Sol P y) : aeval shiftOp (fpoly P) y = 0 := by
  funext t
  rw [fpoly, aeval_sparse, hy t, expos, List.map_map]
  have : (P.all.map fun l => y (t + P.last - l)) = P.all.map ((fun e => y (t + e)) ∘ fun x => P.last - x) := by
    apply List.map_congr_left
    intro l hl
    have := all_range h hl
    show _ = y (t + (P.last - l))
    congr 1
    omega
  rw [this, GF2.add_self]; rfl

/-- `X` has the largest possible order modulo the polynomial of the recurrence -/
def Primitive (P : Params) : Prop := orderOf (AdjoinRoot.root (fpoly P)) = 2 ^ P.last - 1

/-- a polynomial that is not a multiple of the polynomial of the recurrence does not annihilate any
non-zero sequence -/
theorem Sol.zero_of_aeval (h : Valid P) (hp : Primitive P) {y : Nat → GF2} (hy : Sol P y) {g : GF2[X]}
    (hg : AdjoinRoot.mk (fpoly P) g ≠ 0) (h0 : ∀ t, Polynomial.aeval shiftOp g y t = 0) (t : Nat) : y t = 0 := by
  have h2 := h.two_le
  obtain ⟨i, hi⟩ := eq_pow_of_order (fpoly_monic h) (fpoly_natDegree h) (by omega) hp _ hg
  rw [← AdjoinRoot.mk_X, ← map_pow] at hi
  have e := act_eq shiftOp (hy.aeval h) hi
  rw [aeval_X_pow_shift] at e
  refine hy.zero_of_tail h i (fun t => ?_) t
  rw [← congrFun e t, h0]

theorem Sol.period_iff (h : Valid P) (hp : Primitive P) {y : Nat → GF2} (hy : Sol P y) (hne : ∃ t, y t ≠ 0) (d : Nat) :
    (∀ t, y (t + d) = y t) ↔ 2 ^ P.last - 1 ∣ d := by
  constructor
  · intro hd
    by_contra hc
    obtain ⟨t, ht⟩ := hne
    apply ht
    refine hy.zero_of_aeval h hp (g := X ^ d + 1) ?_ ?_ t
    · rw [map_add, map_pow, AdjoinRoot.mk_X, map_one]
      intro hz
      apply hc
      rw [← hp]
      apply orderOf_dvd_of_pow_eq_one
      have e : AdjoinRoot.root (fpoly P) ^ d + 1 + 1 = 1 := by rw [hz, zero_add]
      have e2 : (1 : AdjoinRoot (fpoly P)) + 1 = 0 := by
        rw [← map_one (AdjoinRoot.mk (fpoly P)), ← map_add, Gf2.add_self, map_zero]
      rwa [add_assoc, e2, add_zero] at e
    · intro t
      rw [map_add, LinearMap.add_apply, aeval_X_pow_shift, map_one, Pi.add_apply]
      show y (t + d) + y t = 0
      rw [hd, GF2.add_self]
  · rintro ⟨k, rfl⟩ t
    have e : AdjoinRoot.mk (fpoly P) (X ^ ((2 ^ P.last - 1) * k)) = AdjoinRoot.mk (fpoly P) 1 := by
      rw [map_pow, AdjoinRoot.mk_X, map_one, pow_mul, ← hp, pow_orderOf_eq_one, one_pow]
    have := congrFun (act_eq shiftOp (hy.aeval h) e) t
    rw [aeval_X_pow_shift, map_one] at this
    exact this

/-- non-zero words in the part of the ring that matters give a non-zero bit sequence -/
theorem exists_seqOf (h : Valid P) (e : LagFib P w) {i : Nat} (hi : i < P.last) {v : BitVec w}
    (hv : e.read ((e.index - BitVec.ofNat 32 i) &&& P.mask) = some v) {b : Nat} (hb : v.getLsbD b = true) :
    ∃ t, bit b (seqOf h e (t + (P.size - P.last))) ≠ 0 := by
  have hls := last_lt_size h
  rw [read_hist h e i (by omega)] at hv
  have hv := Option.some.inj hv
  refine ⟨P.last - 1 - i, ?_⟩
  have hh := hist_iter h e 0 i (by omega)
  rw [show P.last - 1 - i + (P.size - P.last) = 0 + P.size - 1 - i by omega, ← hh]
  show bit b (hist h e i) ≠ 0
  rw [hv]
  intro hz
  have := congrArg LinAlg.GF2.value hz
  simp [bit, hb, LinAlg.GF2.zero_value] at this

/-- period of the values from any place on is a period from the beginning -/
theorem Sol.period_of_tail (h : Valid P) {y : Nat → GF2} (hy : Sol P y) (s d : Nat)
    (hs : ∀ t, y (t + s + d) = y (t + s)) (t : Nat) : y (t + d) = y t := by
  have hz : Sol P fun t => y (t + d) + y t := by
    intro t
    have e1 := hy (t + d)
    have e2 := hy t
    simp only
    rw [show t + P.last + d = t + d + P.last by omega, e1, e2, ← List.sum_map_add]
    congr 1
    apply List.map_congr_left
    intro l hl
    have := all_range h hl
    rw [show t + d + P.last - l = t + P.last - l + d by omega]
  have h0 := hz.zero_of_tail h s (fun t => by rw [hs, GF2.add_self]) t
  have h1 : y (t + d) + y t + y t = y t := by rw [h0, zero_add]
  rwa [add_assoc, GF2.add_self, add_zero] at h1

/-- the values returned by an engine with `^` -/
theorem xor_period (h : Valid P) (hp : Primitive P) (hop : P.op = .xor) (e : LagFib P w) {i : Nat} (hi : i < P.last)
    {v : BitVec w} (hv : e.read ((e.index - BitVec.ofNat 32 i) &&& P.mask) = some v) (hne : v ≠ 0) :
    ExactOutputPeriod call e (2 ^ P.last - 1) := by
  have h2 := h.two_le
  have hls := last_lt_size h
  have hpos : 2 ≤ 2 ^ P.last := by
    calc 2 = 2 ^ 1 := rfl
      _ ≤ 2 ^ P.last := Nat.pow_le_pow_right (by omega) (by omega)
  have hopb : ∀ b, P.op = .plus → b = 0 := fun b hb => by rw [hop] at hb; cases hb
  refine ⟨by omega, fun k => ?_, fun t ht hlt => ?_⟩
  · rw [nth_eq h, nth_eq h]
    congr 1
    apply ext_bit
    intro b _
    by_cases hb : ∃ t, bit b (seqOf h e (t + (P.size - P.last))) ≠ 0
    · have := ((sol_seqOf h e b (hopb b)).period_iff h hp hb (2 ^ P.last - 1)).2 dvd_rfl (P.last + k)
      rw [show P.size + (k + (2 ^ P.last - 1)) = P.last + k + (2 ^ P.last - 1) + (P.size - P.last) by omega, this]
      congr 2
      omega
    · push Not at hb
      have a := hb (P.last + k + (2 ^ P.last - 1))
      have b := hb (P.last + k)
      rw [show P.last + k + (2 ^ P.last - 1) + (P.size - P.last) = P.size + (k + (2 ^ P.last - 1)) by omega] at a
      rw [show P.last + k + (P.size - P.last) = P.size + k by omega] at b
      rw [a, b]
  · by_contra hc
    push Not at hc
    obtain ⟨b, hb⟩ : ∃ b, v.getLsbD b = true := by
      by_contra hc
      push Not at hc
      apply hne
      apply BitVec.eq_of_getLsbD_eq
      intro b _
      have := hc b
      simpa using this
    have hsol := sol_seqOf h e b (hopb b)
    have hper := hsol.period_of_tail h P.last t (fun k => by
      have := hc k
      rw [nth_eq h, nth_eq h] at this
      have := congrArg (bit b) (Option.some.inj this)
      rw [show k + P.last + t + (P.size - P.last) = P.size + (k + t) by omega, this]
      congr 2
      omega)
    have hd := (hsol.period_iff h hp (exists_seqOf h e hi hv hb) t).1 hper
    have := Nat.le_of_dvd ht hd
    omega

end Trng.LagFib
