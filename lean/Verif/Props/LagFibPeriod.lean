import Verif.Proofs.LagFibPrim2
import Verif.Proofs.LagFibPrim4
import Verif.Proofs.LagFibPlus
import Verif.Props.LagFib

/-! C68, C69: the periods of the predefined lagged Fibonacci engines. -/
namespace Trng
open Spec LagFib IntMath

variable {w : Nat}

theorem lagfib_primitive (op : Op) : ∀ q ∈ lags2 ++ lags4, Primitive ⟨op, q.1, q.2⟩ := by
  have hv := C33_lagfib_builtin op
  simp only [lags2, lags4, List.cons_append, List.nil_append, List.forall_mem_cons, List.not_mem_nil, false_imp_iff,
    implies_true, and_true] at hv ⊢
  obtain ⟨h1, h2, h3, h4, h5, h6, h7, h8, h9, k1, k2, k3, k4, k5, k6, k7, k8, k9⟩ := hv
  exact ⟨prim2_250 op h1, prim2_521 op h2, prim2_607 op h3, prim2_1279 op h4, prim2_2281 op h5, prim2_3217 op h6,
    prim2_4423 op h7, prim2_9689 op h8, prim2_19937 op h9, prim4_9689_ziff op k1, prim4_521 op k2, prim4_607 op k3,
    prim4_1279 op k4, prim4_2281 op k5, prim4_3217 op k6, prim4_4423 op k7, prim4_9689 op k8, prim4_19937 op k9⟩

theorem lagfib_doubleCheck :
    ∀ q ∈ lags2 ++ lags4, doubleCheck q.2 ((q.1 ++ [q.2]).map (q.2 - ·)) 64 = true := by decide +kernel

theorem lagfib_doubles (op : Op) : ∀ q ∈ lags2 ++ lags4, Doubles ⟨op, q.1, q.2⟩ := fun q hq =>
  doubles_of_check (C33_lagfib_builtin op q hq) rfl rfl (lagfib_doubleCheck q hq)

/-- Every predefined engine with `^`, of any word size, in every state that holds a non-zero word among
the last `L` ones (`L` the largest lag): the returned values have period exactly `2^L - 1`. -/
theorem C68_lagfib_xor_period (q : List Nat × Nat) (hq : q ∈ lags2 ++ lags4) (e : LagFib ⟨.xor, q.1, q.2⟩ w)
    (hne : ∃ i, i < q.2 ∧ ∃ v : BitVec w,
      e.read ((e.index - BitVec.ofNat 32 i) &&& Params.mask ⟨.xor, q.1, q.2⟩) = some v ∧ v ≠ 0) :
    ExactOutputPeriod call e (2 ^ q.2 - 1) := by
  obtain ⟨i, hi, v, hv, hne⟩ := hne
  exact xor_period (P := ⟨.xor, q.1, q.2⟩) (C33_lagfib_builtin .xor q hq) (lagfib_primitive .xor q hq) rfl e hi hv hne

/-- The only other states: all words zero, and the engine returns 0 for ever. -/
theorem C68_lagfib_xor_zero (q : List Nat × Nat) (hq : q ∈ lags2 ++ lags4) (e : LagFib ⟨.xor, q.1, q.2⟩ w)
    (h0 : ∀ i, i < q.2 → e.read ((e.index - BitVec.ofNat 32 i) &&& Params.mask ⟨.xor, q.1, q.2⟩) = some 0) (k : Nat) :
    nth call e k = some 0 := by
  have h := C33_lagfib_builtin .xor q hq
  have h2 := h.two_le
  obtain ⟨x, hx, hn, hr⟩ := C33_lagfib_recurrence h e
  rw [hn]
  congr 1
  have key : ∀ n, x n = 0 := by
    intro n
    induction n using Nat.strong_induction_on with
    | _ n ih =>
      rcases Nat.lt_or_ge n q.2 with hlt | hge
      · have a := hx n hlt
        rw [h0 (q.2 - 1 - n) (by omega)] at a
        exact (Option.some.inj a).symm
      · obtain ⟨m, rfl⟩ : ∃ m, n = q.2 + m := ⟨n - q.2, by omega⟩
        have := hr m
        simp only at this
        rw [this]
        have e1 : (Params.all ⟨.xor, q.1, q.2⟩).map (fun l => x (q.2 + m - l)) =
            (Params.all ⟨.xor, q.1, q.2⟩).map fun _ => (0 : BitVec w) := by
          apply List.map_congr_left
          intro l hl
          have hl1 : 1 ≤ l ∧ l ≤ q.2 := all_range h hl
          exact ih _ (by omega)
        rw [e1]
        generalize Params.all ⟨.xor, q.1, q.2⟩ = l
        induction l with
        | nil => rfl
        | cons a l ihl => rw [List.map_cons, List.foldl_cons, show (0 : BitVec w) ^^^ 0 = 0 from BitVec.xor_zero]; exact ihl
  exact key _

/-- `r250_32` and `lagfib4xor_19937_64` are among them; the state after seeding `lagfib2xor_521_32`
meets the hypothesis. -/
example : (([103], 250) : List Nat × Nat) ∈ lags2 ++ lags4 ∧ (([3860, 7083, 11580], 19937) : List Nat × Nat) ∈ lags2 ++ lags4 :=
  ⟨by decide, by decide⟩

example : let e := LagFib.seed (P := ⟨.xor, [168], 521⟩) (w := 32) {} 1
    ∃ i, i < 521 ∧ ∃ v : BitVec 32, e.read ((e.index - BitVec.ofNat 32 i) &&& Params.mask ⟨.xor, [168], 521⟩) = some v ∧
      v ≠ 0 := ⟨520, by omega, 0x29d987d7, by decide +kernel, by decide⟩

/-- Every predefined engine with `+`, of any word size `w`, in every state that holds an odd word among
the last `L` ones: the returned values have period exactly `2^(w-1) (2^L - 1)`. -/
theorem C69_lagfib_plus_period (q : List Nat × Nat) (hq : q ∈ lags2 ++ lags4) (e : LagFib ⟨.plus, q.1, q.2⟩ w)
    (hodd : ∃ i, i < q.2 ∧ ∃ v : BitVec w,
      e.read ((e.index - BitVec.ofNat 32 i) &&& Params.mask ⟨.plus, q.1, q.2⟩) = some v ∧ v.getLsbD 0 = true) :
    ExactOutputPeriod call e (2 ^ (w - 1) * (2 ^ q.2 - 1)) := by
  obtain ⟨i, hi, v, hv, hodd⟩ := hodd
  exact plus_period (P := ⟨.plus, q.1, q.2⟩) (C33_lagfib_builtin .plus q hq) (lagfib_primitive .plus q hq)
    (lagfib_doubles .plus q hq) rfl e hi hv hodd

example : let e := LagFib.seed (P := ⟨.plus, [168], 521⟩) (w := 32) {} 1
    ∃ i, i < 521 ∧ ∃ v : BitVec 32, e.read ((e.index - BitVec.ofNat 32 i) &&& Params.mask ⟨.plus, [168], 521⟩) = some v ∧
      v.getLsbD 0 = true := ⟨520, by omega, 0x29d987d7, by decide +kernel, by decide⟩

/-- The lowest bit has the shorter period `2^L - 1`, whatever the word size. -/
theorem C69_lagfib_plus_low_bit (q : List Nat × Nat) (hq : q ∈ lags2 ++ lags4) (e : LagFib ⟨.plus, q.1, q.2⟩ w) (k : Nat) :
    (nth call e (k + (2 ^ q.2 - 1))).map (·.getLsbD 0) = (nth call e k).map (·.getLsbD 0) := by
  have h := C33_lagfib_builtin .plus q hq
  have hp := lagfib_primitive .plus q hq
  have hls : q.2 < Params.size ⟨.plus, q.1, q.2⟩ := last_lt_size h
  rw [nth_eq h, nth_eq h]
  simp only [Option.map_some]
  congr 1
  have hsol := sol_seqOf h e 0 (fun _ => rfl)
  have key : ∀ t, bit 0 (seqOf h e (t + (2 ^ q.2 - 1) + (Params.size ⟨.plus, q.1, q.2⟩ - q.2))) =
      bit 0 (seqOf h e (t + (Params.size ⟨.plus, q.1, q.2⟩ - q.2))) := by
    by_cases hb : ∃ t, bit 0 (seqOf h e (t + (Params.size ⟨.plus, q.1, q.2⟩ - q.2))) ≠ 0
    · exact (hsol.period_iff h hp hb _).2 dvd_rfl
    · push Not at hb
      intro t
      rw [hb, hb]
  have := key (q.2 + k)
  have := congrArg LinAlg.GF2.value this
  simp only [bit] at this
  rw [show q.2 + k + (2 ^ q.2 - 1) + (Params.size ⟨.plus, q.1, q.2⟩ - q.2) =
      Params.size ⟨.plus, q.1, q.2⟩ + (k + (2 ^ q.2 - 1)) by omega,
    show q.2 + k + (Params.size ⟨.plus, q.1, q.2⟩ - q.2) = Params.size ⟨.plus, q.1, q.2⟩ + k by omega] at this
  exact this

end Trng
