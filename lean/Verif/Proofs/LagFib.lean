import Verif.Spec.LagFib
import Verif.Proofs.LinAlg
import Verif.Proofs.Modulo
import Verif.Proofs.Engine
import Verif.Spec.Engine
import Mathlib.Data.BitVec

/-! The ring buffer of the lagged Fibonacci engines as a shift register. -/
namespace Trng.LagFib
open LinAlg IntMath Spec

variable {P : Params} {w : Nat}

/-! ### sizes -/

theorem Valid.two_le (h : Valid P) : 2 ≤ P.last := by
  cases hl : P.lags with
  | nil => exact absurd hl h.nonempty
  | cons a l => have := h.range a (by rw [hl]; exact List.mem_cons_self); omega

theorem size_pow (h : Valid P) : ∃ k, P.size = 2 ^ k ∧ IntMath.mask 32 P.last = 2 ^ k - 1 ∧ P.last < 2 ^ k ∧
    2 ^ k < 2 * P.last ∧ k ≤ 31 := by
  have h2 := h.two_le
  have hb := h.bound
  set K := Nat.clog 2 P.last with hK
  have hK31 : K ≤ 31 := (Nat.clog_le_iff_le_pow (by omega)).2 hb.le
  have hle : P.last ≤ 2 ^ K := Nat.le_pow_clog (by omega) _
  have hlt : P.last < 2 ^ K := lt_of_le_of_ne hle (h.notPow K)
  have hpred : 2 ^ K.pred < P.last := Nat.pow_pred_clog_lt_self (by omega) (by omega)
  have hKpos : 0 < K := Nat.clog_pos (by omega) (by omega)
  have hp : 2 ^ K = 2 * 2 ^ K.pred := by
    rw [← pow_succ']
    congr 1
    simp only [Nat.pred_eq_sub_one]
    omega
  have hsz : Nat.size P.last = K := by
    apply le_antisymm
    · exact Nat.size_le.2 hlt
    · by_contra hc
      have : P.last < 2 ^ K.pred := Nat.size_le.1 (by simp only [Nat.pred_eq_sub_one]; omega)
      omega
  refine ⟨K, ?_, ?_, hlt, by omega, hK31⟩
  · rw [Params.size, ceil2_eq (by omega) (by omega) (by omega), Nat.mod_eq_of_lt]
    exact Nat.pow_lt_pow_right (by omega) (by omega)
  · rw [mask_eq (by omega) (by omega), hsz]

theorem size_pos (h : Valid P) : 0 < P.size := by
  obtain ⟨k, h1, _⟩ := size_pow h
  rw [h1]; positivity

theorem last_lt_size (h : Valid P) : P.last < P.size := by
  obtain ⟨k, h1, h2, h3, _⟩ := size_pow h
  rw [h1]; exact h3

theorem size_lt (h : Valid P) : P.size < 2 * P.last := by
  obtain ⟨k, h1, h2, h3, h4, _⟩ := size_pow h
  rw [h1]; exact h4

theorem size_dvd (h : Valid P) : P.size ∣ 2 ^ 32 := by
  obtain ⟨k, h1, h2, h3, h4, h5⟩ := size_pow h
  rw [h1]; exact pow_dvd_pow 2 (by omega)

theorem toNat_and_mask (h : Valid P) (x : BitVec 32) : (x &&& P.mask).toNat = x.toNat % P.size := by
  obtain ⟨k, h1, h2, h3, h4, h5⟩ := size_pow h
  have hk : 2 ^ k ≤ 2 ^ 31 := Nat.pow_le_pow_right (by omega) h5
  rw [BitVec.toNat_and, Params.mask, BitVec.toNat_ofNat, h2, Nat.mod_eq_of_lt (show 2 ^ k - 1 < 2 ^ 32 by omega), h1,
    Nat.and_two_pow_sub_one_eq_mod]

/-- Index arithmetic in `unsigned int`, followed by the mask. -/
theorem toNat_sub_mask (h : Valid P) (x : BitVec 32) (l : Nat) (hl : l ≤ P.size) :
    ((x - BitVec.ofNat 32 l) &&& P.mask).toNat = (x.toNat + (P.size - l)) % P.size := by
  rw [toNat_and_mask h]
  obtain ⟨q, hq⟩ := size_dvd h
  have hpos := size_pos h
  have hx := x.isLt
  have hl32 : l ≤ 2 ^ 32 := hl.trans (Nat.le_of_dvd (by positivity) (size_dvd h))
  have hqpos : 0 < q := by
    rcases Nat.eq_zero_or_pos q with h0 | h0
    · rw [h0] at hq; simp at hq
    · exact h0
  rw [BitVec.toNat_sub, BitVec.toNat_ofNat, Nat.mod_mod_of_dvd _ (size_dvd h)]
  rcases Nat.lt_or_ge l (2 ^ 32) with hlt | hge
  · rw [Nat.mod_eq_of_lt hlt]
    have e : 2 ^ 32 - l + x.toNat = x.toNat + (P.size - l) + P.size * (q - 1) := by
      have : P.size * q = P.size + P.size * (q - 1) := by
        conv_lhs => rw [show q = 1 + (q - 1) by omega]
        ring
      omega
    rw [e, Nat.add_mul_mod_self_left]
  · have e : l = 2 ^ 32 := by omega
    have e2 : P.size = 2 ^ 32 := by
      have := Nat.le_of_dvd (by positivity) (size_dvd h)
      omega
    rw [e, e2]; simp

/-! ### the ring as a shift register -/

/-- The value stored `i` steps before the current one. -/
def hist (h : Valid P) (e : LagFib P w) (i : Nat) : BitVec w :=
  e.r ⟨(e.index.toNat + (P.size - i)) % P.size, Nat.mod_lt _ (size_pos h)⟩

theorem read_eq (h : Valid P) (e : LagFib P w) (x : BitVec 32) (l : Nat) (hl : l ≤ P.size) :
    e.read ((x - BitVec.ofNat 32 l) &&& P.mask) =
      some (e.r ⟨(x.toNat + (P.size - l)) % P.size, Nat.mod_lt _ (size_pos h)⟩) := by
  have e1 := toNat_sub_mask h x l hl
  rw [read, dif_pos (by rw [e1]; exact Nat.mod_lt _ (size_pos h))]
  congr 2
  exact Fin.ext e1

theorem read_hist (h : Valid P) (e : LagFib P w) (i : Nat) (hi : i ≤ P.size) :
    e.read ((e.index - BitVec.ofNat 32 i) &&& P.mask) = some (hist h e i) := read_eq h e e.index i hi

/-- Two states agree if index and history agree. -/
theorem ext_hist (h : Valid P) {e e' : LagFib P w} (hx : e.index = e'.index)
    (hh : ∀ i, i < P.size → hist h e i = hist h e' i) : e = e' := by
  cases e with | mk r x => cases e' with | mk r' x' =>
  simp only at hx
  subst hx
  congr 1
  funext p
  have hp := p.isLt
  have hpos := size_pos h
  have hm := Nat.mod_lt x.toNat hpos
  -- position `p` is the one `i` steps back
  have key := hh ((x.toNat % P.size + (P.size - p.val)) % P.size) (Nat.mod_lt _ hpos)
  simp only [hist] at key
  have e1 : (x.toNat + (P.size - (x.toNat % P.size + (P.size - p.val)) % P.size)) % P.size = p.val := by
    have hx := Nat.div_add_mod x.toNat P.size
    generalize x.toNat % P.size = m at *
    generalize x.toNat / P.size = d at *
    rcases Nat.lt_or_ge (m + (P.size - p.val)) P.size with hlt | hge
    · rw [Nat.mod_eq_of_lt hlt]
      rw [show x.toNat + (P.size - (m + (P.size - p.val))) = p.val + P.size * d by omega,
        Nat.add_mul_mod_self_left, Nat.mod_eq_of_lt hp]
    · have : (m + (P.size - p.val)) % P.size = m + (P.size - p.val) - P.size := by
        rw [Nat.mod_eq_sub_mod hge, Nat.mod_eq_of_lt (by omega)]
      rw [this, show x.toNat + (P.size - (m + (P.size - p.val) - P.size)) = p.val + P.size * (d + 1) by
        rw [Nat.mul_add]; omega, Nat.add_mul_mod_self_left, Nat.mod_eq_of_lt hp]
  have e2 : (⟨(x.toNat + (P.size - (x.toNat % P.size + (P.size - p.val)) % P.size)) % P.size,
      Nat.mod_lt _ hpos⟩ : Fin P.size) = p := Fin.ext e1
  rw [e2] at key
  exact key

theorem all_range (h : Valid P) {l : Nat} (hl : l ∈ P.all) : 1 ≤ l ∧ l ≤ P.last := by
  rw [Params.all, List.mem_append] at hl
  rcases hl with hl | hl
  · have := h.range l hl; omega
  · rw [List.mem_singleton] at hl
    have := h.two_le
    omega

theorem all_nodup (h : Valid P) : P.all.Nodup := by
  rw [Params.all, List.nodup_append]
  refine ⟨h.nodup, List.nodup_singleton _, ?_⟩
  intro a ha b hb
  rw [List.mem_singleton] at hb
  have := h.range a ha
  omega

/-- The index after a step. -/
def nextIndex (e : LagFib P w) : BitVec 32 := (e.index + 1) &&& P.mask

theorem nextIndex_toNat (h : Valid P) (e : LagFib P w) : (nextIndex e).toNat = (e.index.toNat + 1) % P.size := by
  rw [nextIndex, toNat_and_mask h, BitVec.toNat_add, show (1 : BitVec 32).toNat = 1 from rfl,
    Nat.mod_mod_of_dvd _ (size_dvd h)]

/-- `step` as a total function. -/
def stepT (h : Valid P) (e : LagFib P w) : LagFib P w where
  r := Function.update e.r ⟨(e.index.toNat + 1) % P.size, Nat.mod_lt _ (size_pos h)⟩
    (comb P.op (P.all.map fun l => hist h e (l - 1)))
  index := nextIndex e

theorem step_eq (h : Valid P) (e : LagFib P w) : e.step = some (stepT h e) := by
  have hn := nextIndex_toNat h e
  have hpos := size_pos h
  have hread : ∀ l ∈ P.all, LagFib.read ({ e with index := nextIndex e } : LagFib P w)
      ((nextIndex e - BitVec.ofNat 32 l) &&& P.mask) = some (hist h e (l - 1)) := by
    intro l hl
    have hl' := all_range h hl
    have hls := last_lt_size h
    rw [read_eq h _ _ l (by omega)]
    simp only [hist]
    congr 2
    apply Fin.ext
    show ((nextIndex e).toNat + (P.size - l)) % P.size = (e.index.toNat + (P.size - (l - 1))) % P.size
    rw [hn, Nat.mod_add_mod]
    congr 1
    omega
  unfold step
  simp only
  change (P.all.mapM (fun l => LagFib.read ({ e with index := nextIndex e } : LagFib P w)
      ((nextIndex e - BitVec.ofNat 32 l) &&& P.mask)) >>= _) = _
  rw [List.mapM_option_eq_some_map _ (fun l => hist h e (l - 1)) _ hread]
  show LagFib.write _ (nextIndex e) _ = _
  rw [write, dif_pos (by rw [hn]; exact Nat.mod_lt _ hpos)]
  simp only [stepT]
  congr 3
  exact Fin.ext hn

theorem hist_stepT_zero (h : Valid P) (e : LagFib P w) :
    hist h (stepT h e) 0 = comb P.op (P.all.map fun l => hist h e (l - 1)) := by
  have hn := nextIndex_toNat h e
  have : hist h (stepT h e) 0 = (stepT h e).r ⟨(e.index.toNat + 1) % P.size, Nat.mod_lt _ (size_pos h)⟩ := by
    simp only [hist]
    congr 1
    apply Fin.ext
    show ((nextIndex e).toNat + (P.size - 0)) % P.size = _
    rw [hn, Nat.sub_zero, Nat.add_mod_right, Nat.mod_mod]
  rw [this]
  simp only [stepT, Function.update_self]

theorem hist_stepT_succ (h : Valid P) (e : LagFib P w) (i : Nat) (hi : i + 1 < P.size) :
    hist h (stepT h e) (i + 1) = hist h e i := by
  have hn := nextIndex_toNat h e
  have e1 : ((nextIndex e).toNat + (P.size - (i + 1))) % P.size = (e.index.toNat + (P.size - i)) % P.size := by
    rw [hn, Nat.mod_add_mod]
    congr 1
    omega
  have e2 : hist h (stepT h e) (i + 1) = (stepT h e).r ⟨(e.index.toNat + (P.size - i)) % P.size, Nat.mod_lt _ (size_pos h)⟩ := by
    simp only [hist]
    congr 1
    exact Fin.ext e1
  rw [e2]
  simp only [stepT, hist]
  rw [Function.update_of_ne]
  intro hc
  have hc := Fin.mk.inj_iff.1 hc
  -- (x + (R - i)) % R = (x + 1) % R is impossible for i + 1 < R
  have h1 : (e.index.toNat + (P.size - i)) ≡ (e.index.toNat + 1) [MOD P.size] := hc
  have h2 : P.size - i ≡ 1 [MOD P.size] := Nat.ModEq.add_left_cancel' _ h1
  rcases Nat.eq_zero_or_pos i with h0 | h0
  · subst h0
    have : P.size % P.size = 1 % P.size := h2
    rw [Nat.mod_self, Nat.mod_eq_of_lt (by omega)] at this
    omega
  · have : (P.size - i) % P.size = 1 % P.size := h2
    rw [Nat.mod_eq_of_lt (by omega), Nat.mod_eq_of_lt (by omega)] at this
    omega

theorem stepN_eq (h : Valid P) (n : Nat) (e : LagFib P w) : stepN n e = some ((stepT h)^[n] e) := by
  induction n generalizing e with
  | zero => rfl
  | succ n ih =>
    rw [stepN, step_eq h]
    show stepN n (stepT h e) = _
    rw [ih, Function.iterate_succ_apply]

theorem call_eq (h : Valid P) (e : LagFib P w) : e.call = (some (hist h (stepT h e) 0), stepT h e) := by
  rw [call, step_eq h]
  simp only
  congr 1
  have hn := nextIndex_toNat h e
  rw [read, dif_pos (by show (nextIndex e).toNat < _; rw [hn]; exact Nat.mod_lt _ (size_pos h))]
  simp only [hist]
  congr 2
  apply Fin.ext
  show (nextIndex e).toNat = ((nextIndex e).toNat + (P.size - 0)) % P.size
  rw [hn, Nat.sub_zero, Nat.add_mod_right, Nat.mod_mod]

theorem afterCalls_eq (h : Valid P) (n : Nat) (e : LagFib P w) : afterCalls call n e = (stepT h)^[n] e := by
  rw [afterCalls_eq_iterate]
  congr 1
  funext e
  rw [call_eq h]

theorem iter_index (h : Valid P) (n : Nat) (e : LagFib P w) (hn : 0 < n) :
    ((stepT h)^[n] e).index.toNat = (e.index.toNat + n) % P.size := by
  induction n with
  | zero => omega
  | succ n ih =>
    rw [Function.iterate_succ_apply']
    show (nextIndex _).toNat = _
    rw [nextIndex_toNat h]
    rcases Nat.eq_zero_or_pos n with h0 | h0
    · subst h0; rfl
    · rw [ih h0, Nat.mod_add_mod]; rfl

/-- The sequence of stored and produced values; `seqOf e (size - 1)` is the current one. -/
def seqOf (h : Valid P) (e : LagFib P w) (i : Nat) : BitVec w :=
  if i < P.size then hist h e (P.size - 1 - i) else hist h ((stepT h)^[i - P.size + 1] e) 0

theorem hist_iter (h : Valid P) (e : LagFib P w) (n i : Nat) (hi : i < P.size) :
    hist h ((stepT h)^[n] e) i = seqOf h e (n + P.size - 1 - i) := by
  induction n generalizing i with
  | zero =>
    rw [seqOf, if_pos (by omega)]
    show hist h e i = _
    congr 1
    omega
  | succ n ih =>
    cases i with
    | zero =>
      rw [seqOf, if_neg (by omega)]
      congr 2
      omega
    | succ i =>
      rw [Function.iterate_succ_apply', hist_stepT_succ h _ i hi, ih i (by omega)]
      congr 1
      omega

theorem seqOf_rec (h : Valid P) (e : LagFib P w) (n : Nat) :
    seqOf h e (P.size + n) = comb P.op (P.all.map fun l => seqOf h e (P.size + n - l)) := by
  rw [seqOf, if_neg (by omega), Nat.add_sub_cancel_left, Function.iterate_succ_apply', hist_stepT_zero]
  congr 1
  apply List.map_congr_left
  intro l hl
  have := all_range h hl
  have := last_lt_size h
  rw [hist_iter h e n (l - 1) (by omega)]
  congr 1
  omega

theorem nth_eq (h : Valid P) (e : LagFib P w) (k : Nat) : nth call e k = some (seqOf h e (P.size + k)) := by
  rw [nth, call_eq h, afterCalls_eq h, ← Function.iterate_succ_apply' (stepT h), hist_iter h e _ 0 (size_pos h)]
  show some _ = some _
  congr 2
  omega

/-- A sequence with the recurrence is determined by `last` consecutive terms. -/
theorem rec_unique (h : Valid P) {x y : Nat → BitVec w} (s : Nat)
    (hx : ∀ n, x (s + P.last + n) = comb P.op (P.all.map fun l => x (s + P.last + n - l)))
    (hy : ∀ n, y (s + P.last + n) = comb P.op (P.all.map fun l => y (s + P.last + n - l)))
    (hxy : ∀ i, i < P.last → x (s + i) = y (s + i)) (i : Nat) : x (s + i) = y (s + i) := by
  induction i using Nat.strong_induction_on with
  | _ i ih =>
    rcases Nat.lt_or_ge i P.last with hlt | hge
    · exact hxy i hlt
    · obtain ⟨n, rfl⟩ := Nat.exists_eq_add_of_le hge
      rw [← add_assoc, hx, hy]
      congr 1
      apply List.map_congr_left
      intro l hl
      have := all_range h hl
      have e := ih (P.last + n - l) (by omega)
      rw [show s + P.last + n - l = s + (P.last + n - l) by omega]
      exact e

/-! ### sums -/

theorem comb_xor (xs : List (BitVec w)) : comb .xor xs = xs.foldl (· ^^^ ·) 0 := by
  cases xs with
  | nil => rfl
  | cons x xs =>
    show xs.foldl (Op.xor.ap) x = xs.foldl (· ^^^ ·) (0#w ^^^ x)
    rw [BitVec.zero_xor]; rfl

theorem comb_plus (xs : List (BitVec w)) : comb .plus xs = xs.foldl (· + ·) 0 := by
  cases xs with
  | nil => rfl
  | cons x xs =>
    show xs.foldl (Op.plus.ap) x = xs.foldl (· + ·) (0 + x)
    rw [zero_add]; rfl

theorem comb_eq (op : Op) (xs : List (BitVec w)) : comb op xs = match op with
    | .xor => xs.foldl (· ^^^ ·) 0
    | .plus => xs.foldl (· + ·) 0 := by
  cases op
  · exact comb_xor xs
  · exact comb_plus xs

theorem comb_plus_sum (xs : List (BitVec w)) : comb .plus xs = xs.sum := by
  rw [comb_plus]
  have := foldl_sum xs (fun x => x) (0 : BitVec w)
  rw [zero_add, List.map_id'] at this
  exact this

/-- Bit `b` of a word, as an element of `GF2`. -/
def bit (b : Nat) (x : BitVec w) : GF2 := ⟨x.getLsbD b⟩

theorem bit_xor (b : Nat) (x y : BitVec w) : bit b (x ^^^ y) = bit b x + bit b y := by
  apply GF2.ext
  rw [GF2.add_value]
  simp [bit]

theorem bit_zero (b : Nat) : bit b (0 : BitVec w) = 0 := by
  apply GF2.ext; simp [bit, GF2.zero_value]

theorem bit_act (b : Nat) (a : GF2) (x : BitVec w) : bit b (a.act x) = a * bit b x := by
  apply GF2.ext
  rw [GF2.mul_value]
  simp [bit, GF2.getLsbD_act]

theorem bit_foldl_xor {α : Type} (b : Nat) (f : α → BitVec w) (l : List α) (s : BitVec w) :
    bit b (l.foldl (fun s k => s ^^^ f k) s) = bit b s + (l.map fun k => bit b (f k)).sum := by
  induction l generalizing s with
  | nil => simp
  | cons a l ih => rw [List.foldl_cons, ih, bit_xor, List.map_cons, List.sum_cons, add_assoc]

theorem bit_comb (b : Nat) (xs : List (BitVec w)) : bit b (comb .xor xs) = (xs.map (bit b)).sum := by
  rw [comb_xor]
  have := bit_foldl_xor b (fun x : BitVec w => x) xs 0
  rw [bit_zero, zero_add] at this
  exact this

theorem ext_bit {x y : BitVec w} (h : ∀ b, b < w → bit b x = bit b y) : x = y := by
  apply BitVec.eq_of_getLsbD_eq
  intro b hb
  have := h b hb
  simpa [bit] using this

end Trng.LagFib
