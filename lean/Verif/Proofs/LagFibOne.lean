import Verif.Proofs.LagFibDiscard

/-! Sequences of bits with the recurrence, and the effect of `discard(1)`. -/
namespace Trng.LagFib
open LinAlg IntMath Spec

variable {P : Params} {w : Nat}

/-- A sequence of bits that follows the recurrence. -/
def Sol (P : Params) (y : Nat → GF2) : Prop :=
  ∀ t, y (t + P.last) = (P.all.map fun l => y (t + P.last - l)).sum

/-- difference of neighbours -/
def Δ (y : Nat → GF2) : Nat → GF2 := fun t => y (t + 1) + y t

theorem GF2.add_self (a : GF2) : a + a = 0 := by rcases a with ⟨_ | _⟩ <;> rfl

theorem Sol.delta (h : Valid P) {y : Nat → GF2} (hy : Sol P y) : Sol P (Δ y) := by
  intro t
  have e1 := hy (t + 1)
  have e2 := hy t
  simp only [Δ]
  rw [show t + P.last + 1 = t + 1 + P.last by omega, e1, e2, ← List.sum_map_add]
  congr 1
  apply List.map_congr_left
  intro l hl
  have := all_range h hl
  rw [show t + 1 + P.last - l = t + P.last - l + 1 by omega]

theorem delta_pow (y : Nat → GF2) (m : Nat) : Δ^[2 ^ m] y = fun t => y (t + 2 ^ m) + y t := by
  induction m generalizing y with
  | zero => rfl
  | succ m ih =>
    rw [pow_succ, mul_two, Function.iterate_add_apply, ih y, ih]
    funext t
    rw [show t + 2 ^ m + 2 ^ m = t + (2 ^ m + 2 ^ m) by omega,
      show y (t + (2 ^ m + 2 ^ m)) + y (t + 2 ^ m) + (y (t + 2 ^ m) + y t) =
        y (t + (2 ^ m + 2 ^ m)) + (y (t + 2 ^ m) + y (t + 2 ^ m)) + y t by ring, GF2.add_self, add_zero]

theorem Sol.const_zero {z : Nat → GF2} (hz : Sol P z) (hev : P.all.length % 2 = 0) (hc : Δ z = fun _ => 0) :
    z = fun _ => 0 := by
  have hstep : ∀ t, z (t + 1) = z t := by
    intro t
    have h1 : z (t + 1) + z t = 0 := congrFun hc t
    have h2 : z (t + 1) + z t + z t = z t := by rw [h1, zero_add]
    rwa [add_assoc, GF2.add_self, add_zero] at h2
  have hall : ∀ t, z t = z 0 := by
    intro t
    induction t with
    | zero => rfl
    | succ t ih => rw [hstep, ih]
  have h0 := hz 0
  rw [hall] at h0
  have e : (P.all.map fun l => z (0 + P.last - l)) = P.all.map fun _ => z 0 := List.map_congr_left fun l _ => hall _
  rw [e, List.map_const', List.sum_replicate] at h0
  obtain ⟨k, hk⟩ := Nat.dvd_of_mod_eq_zero hev
  rw [hk, mul_comm, mul_nsmul', two_nsmul, GF2.add_self] at h0
  funext t
  rw [hall, h0, nsmul_zero]

theorem Sol.zero_of_iterate (h : Valid P) (hev : P.all.length % 2 = 0) (j : Nat) {y : Nat → GF2} (hy : Sol P y)
    (hj : Δ^[j] y = fun _ => 0) : y = fun _ => 0 := by
  induction j generalizing y with
  | zero => exact hj
  | succ j ih =>
    rw [Function.iterate_succ_apply] at hj
    exact hy.const_zero hev (ih (hy.delta h) hj)

theorem Sol.shift (h : Valid P) {y : Nat → GF2} (hy : Sol P y) (s : Nat) : Sol P fun t => y (t + s) := by
  intro t
  have := hy (t + s)
  simp only
  rw [show t + P.last + s = t + s + P.last by omega, this]
  congr 1
  apply List.map_congr_left
  intro l hl
  have := all_range h hl
  rw [show t + s + P.last - l = t + P.last - l + s by omega]

/-- A sequence with the recurrence that vanishes from some place on vanishes. -/
theorem Sol.zero_of_tail (h : Valid P) {y : Nat → GF2} (hy : Sol P y) (s : Nat) (hs : ∀ t, y (t + s) = 0) (t : Nat) :
    y t = 0 := by
  induction s with
  | zero => exact hs t
  | succ s ih =>
    apply ih
    intro t
    cases t with
    | succ t => rw [show t + 1 + s = t + (s + 1) by omega]; exact hs t
    | zero =>
      have e := hy (0 + s)
      have hz : ∀ k, 0 < k → y (s + k) = 0 := by
        intro k hk
        rw [show s + k = (k - 1) + (s + 1) by omega]; exact hs _
      have h2 := h.two_le
      rw [Nat.zero_add, hz _ (by omega), Params.all, List.map_append, List.sum_append] at e
      have e3 : (P.lags.map fun l => y (s + P.last - l)) = P.lags.map fun _ => 0 := by
        apply List.map_congr_left
        intro l hl
        have := h.range l hl
        rw [show s + P.last - l = s + (P.last - l) by omega]
        exact hz _ (by omega)
      rw [e3] at e
      simp at e
      rw [Nat.zero_add]
      exact e.symm

/-- A non-zero bit sequence with the recurrence, an even number of lags, is not repeated after a
power of two. -/
theorem Sol.no_pow_two_period (h : Valid P) (hev : P.all.length % 2 = 0) {y : Nat → GF2} (hy : Sol P y) (m s : Nat)
    (hper : ∀ t, y (t + s + 2 ^ m) = y (t + s)) (t : Nat) : y t = 0 := by
  refine hy.zero_of_tail h s (fun t => ?_) t
  have h1 := hy.shift h s
  have h2 : Δ^[2 ^ m] (fun t => y (t + s)) = fun _ => 0 := by
    rw [delta_pow]
    funext t
    rw [show t + 2 ^ m + s = t + s + 2 ^ m by omega, hper, GF2.add_self]
  exact congrFun (h1.zero_of_iterate h hev _ h2) t

theorem bit_zero_add (x y : BitVec w) : bit 0 (x + y) = bit 0 x + bit 0 y := by
  apply GF2.ext
  rw [GF2.add_value]
  simp only [bit]
  rcases Nat.eq_zero_or_pos w with h0 | h0
  · subst h0; simp [BitVec.eq_nil x, BitVec.eq_nil y]
  · rw [BitVec.getLsbD_add h0, BitVec.carry_zero]
    simp

theorem bit_zero_sum (xs : List (BitVec w)) : bit 0 xs.sum = (xs.map (bit 0)).sum := by
  induction xs with
  | nil => exact bit_zero 0
  | cons a xs ih => rw [List.sum_cons, bit_zero_add, ih, List.map_cons, List.sum_cons]

/-- The bit sequences of the values follow the recurrence (for `plus`: the lowest bit). -/
theorem sol_seqOf (h : Valid P) (e : LagFib P w) (b : Nat) (hb : P.op = .plus → b = 0) :
    Sol P fun t => bit b (seqOf h e (t + (P.size - P.last))) := by
  have hls := last_lt_size h
  intro t
  simp only
  rw [show t + P.last + (P.size - P.last) = P.size + t by omega, seqOf_rec]
  have e1 : (P.all.map fun l => seqOf h e (P.size + t - l)) =
      P.all.map fun l => seqOf h e (t + P.last - l + (P.size - P.last)) := by
    apply List.map_congr_left
    intro l hl
    have := all_range h hl
    congr 1
    omega
  rw [e1]
  cases hop : P.op with
  | xor => rw [bit_comb, List.map_map]; rfl
  | plus =>
    rw [hb hop, comb_plus_sum, bit_zero_sum, List.map_map]
    rfl

end Trng.LagFib
