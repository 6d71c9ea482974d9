import Verif.Proofs.LagFibOne
import Verif.Spec.Engine

/-! C33, C34, C35 and the lagged Fibonacci parts of C38, C65: the class templates lagfib2xor,
lagfib2plus, lagfib4xor, lagfib4plus.  `call` gives `none` exactly if `operator()` has undefined
behaviour (an access outside of the ring array). -/
namespace Trng
open Spec LagFib IntMath

variable {P : Params} {w : Nat}

/-! ### C33 -/

/-- Every call is defined, and the stored values followed by the returned values form a sequence
in which each term combines the terms `lag` places earlier. -/
theorem C33_lagfib_recurrence (h : Valid P) (e : LagFib P w) :
    ∃ x : Nat → BitVec w,
      (∀ j, j < P.last → e.read ((e.index - BitVec.ofNat 32 (P.last - 1 - j)) &&& P.mask) = some (x j)) ∧
      (∀ k, nth call e k = some (x (P.last + k))) ∧ Recurrence P x := by
  have hls := last_lt_size h
  refine ⟨fun j => seqOf h e (P.size - P.last + j), ?_, ?_, ?_⟩
  · intro j hj
    rw [read_hist h e _ (by omega)]
    have := hist_iter h e 0 (P.last - 1 - j) (by omega)
    rw [show hist h e (P.last - 1 - j) = hist h ((stepT h)^[0] e) (P.last - 1 - j) from rfl, this]
    congr 2
    omega
  · intro k
    rw [nth_eq h]
    congr 2
    omega
  · intro k
    show seqOf h e (P.size - P.last + (P.last + k)) = _
    rw [show P.size - P.last + (P.last + k) = P.size + k by omega, seqOf_rec, comb_eq]
    have e1 : (P.all.map fun l => seqOf h e (P.size + k - l)) =
        P.all.map fun l => seqOf h e (P.size - P.last + (P.last + k - l)) := by
      apply List.map_congr_left
      intro l hl
      have := all_range h hl
      congr 1
      omega
    rw [e1]
    cases P.op <;> rfl

/-- In terms of returned values only: from call number `last` on, each value combines earlier
ones.  Two lags. -/
theorem C33_lagfib2 (op : Op) (A B : Nat) (h : Valid ⟨op, [A], B⟩) (e : LagFib ⟨op, [A], B⟩ w) (k : Nat) (hk : B ≤ k) :
    ∃ a b : BitVec w, nth call e (k - A) = some a ∧ nth call e (k - B) = some b ∧
      nth call e k = some (match op with | .xor => a ^^^ b | .plus => a + b) := by
  have hA := h.range A List.mem_cons_self
  simp only at hA
  refine ⟨_, _, nth_eq h _ _, nth_eq h _ _, ?_⟩
  rw [nth_eq h, seqOf_rec]
  have e1 : LagFib.Params.size ⟨op, [A], B⟩ + k - A = LagFib.Params.size ⟨op, [A], B⟩ + (k - A) := by omega
  have e2 : LagFib.Params.size ⟨op, [A], B⟩ + k - B = LagFib.Params.size ⟨op, [A], B⟩ + (k - B) := by omega
  simp only [Params.all, List.cons_append, List.nil_append, List.map_cons, List.map_nil, e1, e2]
  cases op <;> rfl

/-- Four lags. -/
theorem C33_lagfib4 (op : Op) (A B C D : Nat) (h : Valid ⟨op, [A, B, C], D⟩) (e : LagFib ⟨op, [A, B, C], D⟩ w)
    (k : Nat) (hk : D ≤ k) :
    ∃ a b c d : BitVec w, nth call e (k - A) = some a ∧ nth call e (k - B) = some b ∧
      nth call e (k - C) = some c ∧ nth call e (k - D) = some d ∧
      nth call e k = some (match op with | .xor => a ^^^ b ^^^ c ^^^ d | .plus => a + b + c + d) := by
  have hA := h.range A (by simp)
  have hB := h.range B (by simp)
  have hC := h.range C (by simp)
  simp only at hA hB hC
  refine ⟨_, _, _, _, nth_eq h _ _, nth_eq h _ _, nth_eq h _ _, nth_eq h _ _, ?_⟩
  rw [nth_eq h, seqOf_rec]
  have e1 : LagFib.Params.size ⟨op, [A, B, C], D⟩ + k - A = LagFib.Params.size ⟨op, [A, B, C], D⟩ + (k - A) := by omega
  have e2 : LagFib.Params.size ⟨op, [A, B, C], D⟩ + k - B = LagFib.Params.size ⟨op, [A, B, C], D⟩ + (k - B) := by omega
  have e3 : LagFib.Params.size ⟨op, [A, B, C], D⟩ + k - C = LagFib.Params.size ⟨op, [A, B, C], D⟩ + (k - C) := by omega
  have e4 : LagFib.Params.size ⟨op, [A, B, C], D⟩ + k - D = LagFib.Params.size ⟨op, [A, B, C], D⟩ + (k - D) := by omega
  simp only [Params.all, List.cons_append, List.nil_append, List.map_cons, List.map_nil, e1, e2, e3, e4]
  cases op <;> rfl

theorem not_pow_of_between {x k : Nat} (h1 : 2 ^ k < x) (h2 : x < 2 ^ (k + 1)) : ∀ j, x ≠ 2 ^ j := by
  rintro j rfl
  have a := (Nat.pow_lt_pow_iff_right (show 1 < 2 by omega)).1 h1
  have b := (Nat.pow_lt_pow_iff_right (show 1 < 2 by omega)).1 h2
  omega

/-- The lags of all predefined engines meet the condition. -/
theorem C33_lagfib_builtin (op : Op) : ∀ q ∈ lags2 ++ lags4, Valid ⟨op, q.1, q.2⟩ := by
  have key : ∀ q ∈ lags2 ++ lags4, q.1 ≠ [] ∧ (∀ l ∈ q.1, 1 ≤ l ∧ l < q.2) ∧ q.1.Nodup ∧
      2 ^ Nat.log2 q.2 < q.2 ∧ q.2 < 2 ^ (Nat.log2 q.2 + 1) ∧ q.2 < 2 ^ 31 := by decide +kernel
  intro q hq
  obtain ⟨h1, h2, h3, h4, h5, h6⟩ := key q hq
  exact ⟨h1, h2, h3, not_pow_of_between h4 h5, h6⟩

example : Valid ⟨.xor, [103], 250⟩ := C33_lagfib_builtin .xor ([103], 250) (by decide)
example : Valid ⟨.plus, [3860, 7083, 11580], 19937⟩ := C33_lagfib_builtin .plus ([3860, 7083, 11580], 19937) (by decide)

/-- If the largest lag is a power of two the first call after seeding is undefined: it writes behind
the end of the ring array. -/
theorem C33_lagfib_power_of_two_undefined (k : Nat) (hk : k ≤ 31) (hP : P.last = 2 ^ k)
    (e : LagFib P w) (G : Source) : (call (e.seedGen G)).1 = none := by
  have hlt : P.last < 2 ^ 32 := by rw [hP]; exact Nat.pow_lt_pow_right (by omega) (by omega)
  have hpos : 0 < P.last := by rw [hP]; positivity
  have hsz : P.size = P.last := by
    rw [Params.size, ceil2_eq (by omega) hpos hlt, hP, Nat.clog_pow 2 k (by omega), Nat.mod_eq_of_lt]
    exact Nat.pow_lt_pow_right (by omega) (by omega)
  have hmask : IntMath.mask 32 P.last = 2 ^ (k + 1) - 1 := by
    rw [mask_eq (by omega) hlt, hP, Nat.size_pow]
  have hidx : ((e.seedGen G).index + 1) &&& P.mask = BitVec.ofNat 32 P.last := by
    show (BitVec.ofNat 32 P.last - 1 + 1) &&& P.mask = _
    rw [sub_add_cancel]
    apply BitVec.eq_of_toNat_eq
    have hk1 : 2 ^ (k + 1) ≤ 2 ^ 32 := Nat.pow_le_pow_right (by omega) (by omega)
    have hk0 : 0 < 2 ^ (k + 1) := by positivity
    rw [BitVec.toNat_and, Params.mask, BitVec.toNat_ofNat, BitVec.toNat_ofNat, hmask,
      Nat.mod_eq_of_lt (show 2 ^ (k + 1) - 1 < 2 ^ 32 by omega), Nat.and_two_pow_sub_one_eq_mod, Nat.mod_eq_of_lt hlt,
      Nat.mod_eq_of_lt]
    rw [hP]; exact Nat.pow_lt_pow_right (by omega) (by omega)
  have hstep : (e.seedGen G).step = none := by
    unfold step
    simp only [hidx]
    rw [Option.bind_eq_bind, Option.bind_eq_none_iff]
    intro xs _
    rw [write, dif_neg]
    rw [BitVec.toNat_ofNat, Nat.mod_eq_of_lt hlt, hsz]
    omega
  rw [call, hstep]

example : (call (LagFib.seed (P := ⟨.plus, [97], 128⟩) (w := 32) {} 42)).1 = none :=
  C33_lagfib_power_of_two_undefined 7 (by omega) rfl _ _

/-! ### C34 -/

theorem pivot_ge (h : Valid P) (hL : P.last ≤ 2 ^ 19) (n : BitVec 64) (hn : 2 ≤ n.toNat)
    (hgt : n > BitVec.ofNat 64 (log2Ceil n.toNat) * BitVec.ofNat 64 P.last *
      BitVec.ofNat 64 P.last * BitVec.ofNat 64 P.last) : P.last ≤ n.toNat := by
  have h2 := h.two_le
  have hc1 : 1 ≤ log2Ceil n.toNat := by
    rw [log2Ceil_eq (by omega)]; exact Nat.clog_pos (by omega) hn
  have hc2 : log2Ceil n.toNat ≤ 64 := by
    rw [log2Ceil_eq (by omega), Nat.clog_le_iff_le_pow (by omega)]; exact n.isLt.le
  have hsq : P.last * P.last ≤ 2 ^ 38 := by
    calc P.last * P.last ≤ 2 ^ 19 * 2 ^ 19 := Nat.mul_le_mul hL hL
      _ = 2 ^ 38 := by norm_num
  have hcl : log2Ceil n.toNat * P.last ≤ 2 ^ 25 := by
    calc log2Ceil n.toNat * P.last ≤ 64 * 2 ^ 19 := Nat.mul_le_mul hc2 hL
      _ = 2 ^ 25 := by norm_num
  have hcll : log2Ceil n.toNat * P.last * P.last ≤ 2 ^ 44 := by
    calc log2Ceil n.toNat * P.last * P.last ≤ 2 ^ 25 * 2 ^ 19 := Nat.mul_le_mul hcl hL
      _ = 2 ^ 44 := by norm_num
  have hclll : log2Ceil n.toNat * P.last * P.last * P.last ≤ 2 ^ 63 := by
    calc log2Ceil n.toNat * P.last * P.last * P.last ≤ 2 ^ 44 * 2 ^ 19 := Nat.mul_le_mul hcll hL
      _ = 2 ^ 63 := by norm_num
  have hval : (BitVec.ofNat 64 (log2Ceil n.toNat) * BitVec.ofNat 64 P.last *
      BitVec.ofNat 64 P.last * BitVec.ofNat 64 P.last).toNat = log2Ceil n.toNat * P.last * P.last * P.last := by
    rw [← BitVec.ofNat_mul, ← BitVec.ofNat_mul, ← BitVec.ofNat_mul, BitVec.toNat_ofNat, Nat.mod_eq_of_lt]
    omega
  have hlt : log2Ceil n.toNat * P.last * P.last * P.last < n.toNat := by
    rw [← hval]; exact BitVec.lt_def.1 hgt
  have : P.last ≤ log2Ceil n.toNat * P.last * P.last * P.last := by
    have h1 : 1 ≤ log2Ceil n.toNat * P.last * P.last :=
      Nat.mul_pos (Nat.mul_pos hc1 (by omega)) (by omega)
    calc P.last = 1 * P.last := (Nat.one_mul _).symm
      _ ≤ _ := Nat.mul_le_mul_right _ h1
  omega

/-- `discard(n)` leaves the engine in exactly the state `n` calls leave it in, for every `n` but 1
(and every largest lag up to 2^19, which includes all predefined engines). -/
theorem C34_lagfib_discard_partial (h : Valid P) (hL : P.last ≤ 2 ^ 19) (e : LagFib P w) (n : BitVec 64) (hn : n ≠ 1) :
    e.discard n = some (afterCalls call n.toNat e) := by
  have h2 := h.two_le
  rw [discard_steps h, afterCalls_eq h]
  congr 2
  split
  · rename_i hgt
    have hn2 : 2 ≤ n.toNat := by
      by_contra hc
      have h01 : n.toNat = 0 ∨ n.toNat = 1 := by omega
      rcases h01 with h0 | h0
      · have : n = 0 := BitVec.eq_of_toNat_eq h0
        subst this
        have := BitVec.lt_def.1 hgt
        simp at this
      · exact hn (BitVec.eq_of_toNat_eq h0)
    have hge := pivot_ge h hL n hn2 hgt
    have hb : (BitVec.ofNat 64 P.last).toNat = P.last := by
      rw [BitVec.toNat_ofNat, Nat.mod_eq_of_lt (show P.last < 2 ^ 64 by omega)]
    rw [BitVec.toNat_sub_of_le (by rw [BitVec.le_def, hb]; exact hge), hb]
    omega
  · rfl

example : Valid ⟨.xor, [168], 521⟩ ∧ (521 : Nat) ≤ 2 ^ 19 ∧ (12345678901234567#64) ≠ 1 :=
  ⟨C33_lagfib_builtin .xor ([168], 521) (by decide), by norm_num, by decide⟩

/-- What `discard(1)` does instead: the effect of 2^64 + 1 calls. -/
theorem C34_lagfib_discard_one (h : Valid P) (e : LagFib P w) :
    e.discard 1 = some (afterCalls call (2 ^ 64 + 1) e) := by
  have h2 := h.two_le
  have hb := h.bound
  rw [discard_steps h, afterCalls_eq h]
  congr 2
  rw [if_pos]
  · rw [BitVec.toNat_sub, BitVec.toNat_ofNat, Nat.mod_eq_of_lt (show P.last < 2 ^ 64 by omega),
      show (1 : BitVec 64).toNat = 1 from rfl, Nat.mod_eq_of_lt (show 2 ^ 64 - P.last + 1 < 2 ^ 64 by omega)]
    omega
  · have : log2Ceil (1 : BitVec 64).toNat = 0 := by decide
    rw [this]
    simp

/-- With an even number of lags (as in all four class templates) `discard(1)` is wrong in every
state that holds at least one odd word (for `^`: at least one non-zero word): the values returned
afterwards differ from those returned after one call. -/
theorem C34_lagfib_discard_one_wrong (h : Valid P) (hev : P.all.length % 2 = 0) (e : LagFib P w)
    (hne : ∃ i, i < P.last ∧ ∃ v : BitVec w, e.read ((e.index - BitVec.ofNat 32 i) &&& P.mask) = some v ∧
      (match P.op with | .xor => v ≠ 0 | .plus => v.getLsbD 0 = true)) :
    ∃ e', e.discard 1 = some e' ∧ ¬ SameFuture call e' (call e).2 := by
  refine ⟨_, C34_lagfib_discard_one h e, fun hsame => ?_⟩
  have hls := last_lt_size h
  obtain ⟨i, hi, v, hv, hvne⟩ := hne
  rw [read_hist h e i (by omega)] at hv
  have hv := Option.some.inj hv
  -- a bit that is set
  obtain ⟨b, hb, hbit⟩ : ∃ b, (P.op = .plus → b = 0) ∧ v.getLsbD b = true := by
    cases hop : P.op with
    | xor =>
      rw [hop] at hvne
      by_contra hc
      push Not at hc
      apply hvne
      apply BitVec.eq_of_getLsbD_eq
      intro b _
      have := hc b (by simp)
      simpa using this
    | plus => rw [hop] at hvne; exact ⟨0, fun _ => rfl, hvne⟩
  have hsol := sol_seqOf h e b hb
  have hper : ∀ t, bit b (seqOf h e (t + (P.last + 1) + 2 ^ 64 + (P.size - P.last))) =
      bit b (seqOf h e (t + (P.last + 1) + (P.size - P.last))) := by
    intro t
    have := hsame t
    rw [nth_afterCalls, show (call e).2 = afterCalls call 1 e from rfl, nth_afterCalls, nth_eq h, nth_eq h] at this
    have := congrArg (bit b) (Option.some.inj this)
    rw [show t + (P.last + 1) + 2 ^ 64 + (P.size - P.last) = P.size + (t + (2 ^ 64 + 1)) by omega,
      show t + (P.last + 1) + (P.size - P.last) = P.size + (t + 1) by omega]
    exact this
  have hz := hsol.no_pow_two_period h hev 64 (P.last + 1) hper (P.last - 1 - i)
  have hh := hist_iter h e 0 i (by omega)
  rw [show P.last - 1 - i + (P.size - P.last) = 0 + P.size - 1 - i by omega, ← hh] at hz
  have hz : bit b (hist h e i) = 0 := hz
  rw [hv] at hz
  have := congrArg LinAlg.GF2.value hz
  simp [bit, hbit, LinAlg.GF2.zero_value] at this

/-- A predefined engine (`lagfib2xor_521_32`) in a reachable state that meets the hypotheses. -/
example : ∃ i, i < 521 ∧ ∃ v : BitVec 32,
    (LagFib.seed (P := ⟨.xor, [168], 521⟩) (w := 32) {} 1).read
      (((LagFib.seed (P := ⟨.xor, [168], 521⟩) (w := 32) {} 1).index - BitVec.ofNat 32 i) &&&
        Params.mask ⟨.xor, [168], 521⟩) = some v ∧ v ≠ 0 := by
  refine ⟨520, by omega, 0x29d987d7, ?_⟩
  decide +kernel

/-! ### C35 -/

/-- After seeding, the sequence of returned values is the one the recurrence generates from the
words read from the seeding generator; the earlier state of the engine has no influence. -/
theorem C35_lagfib_seed (h : Valid P) (e : LagFib P w) (G : Source) (x : Nat → BitVec w)
    (hx : ∀ j, j < P.last → x j = seedWord G w (j * w)) (hrec : Recurrence P x) (k : Nat) :
    nth call (e.seedGen G) k = some (x (P.last + k)) := by
  obtain ⟨y, h1, h2, h3⟩ := C33_lagfib_recurrence h (e.seedGen G)
  rw [h2]
  congr 1
  have hls := last_lt_size h
  have h2l := h.two_le
  have hb := h.bound
  have hidx : (e.seedGen G).index.toNat = P.last - 1 := by
    show (BitVec.ofNat 32 P.last - 1).toNat = _
    rw [BitVec.toNat_sub, BitVec.toNat_ofNat, show (1 : BitVec 32).toNat = 1 from rfl,
      Nat.mod_eq_of_lt (show P.last < 2 ^ 32 by omega)]
    omega
  have hbase : ∀ j, j < P.last → y (0 + j) = x (0 + j) := by
    intro j hj
    rw [Nat.zero_add, hx j hj]
    have := h1 j hj
    rw [read_hist h _ _ (by omega)] at this
    rw [← Option.some.inj this]
    have e1 : ((e.seedGen G).index.toNat + (P.size - (P.last - 1 - j))) % P.size = j := by
      rw [hidx, show P.last - 1 + (P.size - (P.last - 1 - j)) = j + P.size by omega, Nat.add_mod_right,
        Nat.mod_eq_of_lt (by omega)]
    simp only [hist, seedGen]
    have e2 : ((BitVec.ofNat 32 P.last - 1).toNat + (P.size - (P.last - 1 - j))) % P.size = j := e1
    simp only [e2, if_pos hj]
  have := rec_unique h 0 (x := y) (y := x)
    (fun n => by rw [Nat.zero_add, comb_eq]; exact h3 n)
    (fun n => by rw [Nat.zero_add, comb_eq]; exact hrec n) hbase (P.last + k)
  rw [Nat.zero_add] at this
  exact this

/-- Seeding makes the history irrelevant. -/
theorem C35_lagfib_seed_forgets (h : Valid P) (e e' : LagFib P w) (G : Source) :
    SameFuture call (e.seedGen G) (e'.seedGen G) := by
  intro k
  have hls := last_lt_size h
  have h2l := h.two_le
  have hb := h.bound
  rw [nth_eq h, nth_eq h]
  congr 1
  have hidx : ∀ e : LagFib P w, (e.seedGen G).index.toNat = P.last - 1 := by
    intro e
    show (BitVec.ofNat 32 P.last - 1).toNat = _
    rw [BitVec.toNat_sub, BitVec.toNat_ofNat, show (1 : BitVec 32).toNat = 1 from rfl,
      Nat.mod_eq_of_lt (show P.last < 2 ^ 32 by omega)]
    omega
  have hh : ∀ (e : LagFib P w) (i : Nat), i < P.last → hist h (e.seedGen G) i = seedWord G w ((P.last - 1 - i) * w) := by
    intro e i hi
    have e2 : ((BitVec.ofNat 32 P.last - 1).toNat + (P.size - i)) % P.size = P.last - 1 - i := by
      have := hidx e
      have e3 : (BitVec.ofNat 32 P.last - 1).toNat = P.last - 1 := this
      rw [e3, show P.last - 1 + (P.size - i) = P.last - 1 - i + P.size by omega, Nat.add_mod_right,
        Nat.mod_eq_of_lt (by omega)]
    simp only [hist, seedGen, e2]
    rw [if_pos (by omega)]
  have key := rec_unique h (P.size - P.last) (x := seqOf h (e.seedGen G)) (y := seqOf h (e'.seedGen G))
    (fun n => by rw [show P.size - P.last + P.last + n = P.size + n by omega]; exact seqOf_rec h _ n)
    (fun n => by rw [show P.size - P.last + P.last + n = P.size + n by omega]; exact seqOf_rec h _ n)
    (fun i hi => by
      have a := hist_iter h (e.seedGen G) 0 (P.last - 1 - i) (by omega)
      have b := hist_iter h (e'.seedGen G) 0 (P.last - 1 - i) (by omega)
      rw [show P.size - P.last + i = 0 + P.size - 1 - (P.last - 1 - i) by omega, ← a, ← b]
      show hist h (e.seedGen G) _ = hist h (e'.seedGen G) _
      rw [hh _ _ (by omega), hh _ _ (by omega)]) (P.last + k)
  rw [show P.size - P.last + (P.last + k) = P.size + k by omega] at key
  exact key

/-- The words read when seeding: bit `w - 1 - j` of word `i` is set exactly if draw number
`i * w + j` of the generator is in the upper half of its range. -/
theorem C35_lagfib_seed_words (G : Source) (k j : Nat) (hj : j < w) :
    (seedWord G w k).getLsbD (w - 1 - j) = decide (G.max / 2 < G.g (k + j) - G.min) := by
  have key : ∀ n, n ≤ w → ∀ i, ((List.range n).foldl (fun (r : BitVec w) j =>
      let r := r <<< 1
      if G.g (k + j) - G.min > G.max / 2 then r + 1 else r) 0).getLsbD i =
      (decide (i < n) && decide (G.max / 2 < G.g (k + (n - 1 - i)) - G.min)) := by
    intro n
    induction n with
    | zero => intro _ i; simp
    | succ n ih =>
      intro hn i
      rw [List.range_succ, List.foldl_append, List.foldl_cons, List.foldl_nil]
      set r := (List.range n).foldl (fun (r : BitVec w) j =>
        let r := r <<< 1
        if G.g (k + j) - G.min > G.max / 2 then r + 1 else r) 0 with hr
      have ih' := ih (by omega)
      simp only
      have hor : ∀ c : Bool, (if c = true then r <<< 1 + 1 else r <<< 1).getLsbD i =
          if i = 0 then c else r.getLsbD (i - 1) && decide (i < w) := by
        intro c
        have hadd : r <<< 1 + (1 : BitVec w) = r <<< 1 ||| 1#w := by
          apply BitVec.add_eq_or_of_and_eq_zero
          apply BitVec.eq_of_getLsbD_eq
          intro b _
          cases b <;> simp [BitVec.getLsbD_one]
        cases c with
        | true =>
          rw [if_pos rfl, hadd, BitVec.getLsbD_or, BitVec.getLsbD_shiftLeft, BitVec.getLsbD_one]
          rcases Nat.eq_zero_or_pos i with h0 | h0
          · subst h0; simp; omega
          · rw [if_neg (by omega)]
            have : ¬ i < 1 := by omega
            simp [this, show ¬ (i = 0) by omega, Bool.and_comm]
        | false =>
          rw [if_neg (by simp), BitVec.getLsbD_shiftLeft]
          rcases Nat.eq_zero_or_pos i with h0 | h0
          · subst h0; simp
          · rw [if_neg (by omega)]
            have : ¬ i < 1 := by omega
            simp [this, Bool.and_comm]
      have hor' := hor (decide (G.max / 2 < G.g (k + n) - G.min))
      simp only [decide_eq_true_eq] at hor'
      show (if G.max / 2 < G.g (k + n) - G.min then r <<< 1 + 1 else r <<< 1).getLsbD i = _
      rw [hor']
      rcases Nat.eq_zero_or_pos i with h0 | h0
      · subst h0
        simp
      · rw [if_neg (by omega), ih']
        by_cases hi : i < n + 1
        · rw [show n - 1 - (i - 1) = n + 1 - 1 - i by omega]
          simp [hi, show i - 1 < n by omega, show i < w by omega]
        · simp [hi, show ¬ i - 1 < n by omega]
  have := key w le_rfl (w - 1 - j)
  rw [seedWord, this, show w - 1 - (w - 1 - j) = j by omega]
  simp; intro; omega

/-! ### C38 -/

/-- Equal engines have equal futures. -/
theorem C38_lagfib_eq (e e' : LagFib P w) (heq : e.eq e' = true) : SameFuture call e e' := by
  have : e = e' := by
    rw [LagFib.eq, Bool.and_eq_true, List.all_eq_true] at heq
    cases e; cases e'
    obtain ⟨h1, h2⟩ := heq
    congr 1
    · funext i; exact of_decide_eq_true (h2 i (List.mem_finRange i))
    · exact of_decide_eq_true h1
  subst this
  exact fun _ => rfl

example : (LagFib.seed (P := ⟨.plus, [1], 3⟩) (w := 8) {} 5).eq (LagFib.seed {} 5) = true := by decide +kernel

/-- The converse fails: an engine that has been used and is then seeded again is not equal to a
fresh one seeded alike, although it returns the same values for ever. -/
theorem C38_lagfib_reseeded_differs :
    let fresh : LagFib ⟨.plus, [1], 3⟩ 8 := LagFib.seed {} 5
    let used := afterCalls call 1 fresh
    (used.seed 5).eq fresh = false ∧ SameFuture call (used.seed 5) fresh := by
  refine ⟨by decide +kernel, ?_⟩
  refine C35_lagfib_seed_forgets ⟨by decide, by decide, by decide, ?_, by decide⟩ _ _ _
  exact not_pow_of_between (x := 3) (k := 1) (by omega) (by omega)

/-! ### C65 -/

/-- Block splitting with `discard`: taking `b ≥ 2` values after `discard(rank * b)` on every rank
gives the sequential sequence. -/
theorem C65_lagfib_block_splitting_partial (h : Valid P) (hL : P.last ≤ 2 ^ 19) (e : LagFib P w) (p b : Nat) (hb : 2 ≤ b)
    (hpb : p * b < 2 ^ 64) :
    ∃ E : Nat → LagFib P w, (∀ rank, rank < p → e.discard (BitVec.ofNat 64 (rank * b)) = some (E rank)) ∧
      (List.range p).flatMap (fun rank => firstOutputs call b (E rank)) = firstOutputs call (p * b) e := by
  refine ⟨fun rank => afterCalls call (rank * b) e, ?_, ?_⟩
  · intro rank hr
    have hlt : rank * b < 2 ^ 64 := lt_of_le_of_lt (Nat.mul_le_mul_right b hr.le) hpb
    rw [C34_lagfib_discard_partial h hL, BitVec.toNat_ofNat, Nat.mod_eq_of_lt hlt]
    intro hc
    have := congrArg BitVec.toNat hc
    rw [BitVec.toNat_ofNat, Nat.mod_eq_of_lt hlt] at this
    have h1 : rank * b = 1 := this
    have := Nat.eq_one_of_mul_eq_one_left h1
    omega
  · exact firstOutputs_blocks call p b e _ (fun _ _ => rfl)

end Trng
