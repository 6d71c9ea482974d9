import Verif.Model.MT
import Verif.Proofs.Engine
import Mathlib.Data.Fintype.EquivFin
import Mathlib.Data.BitVec

/-! Lemmas on the Mersenne twister engines. -/
namespace Trng.MT
open Spec

variable {w : Nat} {P : Params w}

/-- constants for which the loops make sense -/
structure Good (P : Params w) : Prop where
  M_pos : 0 < P.M
  M_lt : P.M < P.N
  two_le : 2 ≤ P.N

theorem good32 : Good mt19937 := ⟨by decide, by decide, by decide⟩
theorem good64 : Good mt19937_64 := ⟨by decide, by decide, by decide⟩

/-- one new word from three old ones -/
def twist (P : Params w) (u l m : BitVec w) : BitVec w :=
  m ^^^ (((u &&& P.UM) ||| (l &&& P.LM)) >>> 1) ^^^
    (if ((u &&& P.UM) ||| (l &&& P.LM)) &&& 1 = 0 then 0 else P.A)

/-- the sequence of words -/
def term (h : Good P) (m : Words P) (n : Nat) : BitVec w :=
  if hn : n < P.N then m ⟨n, hn⟩
  else twist P (term h m (n - P.N)) (term h m (n - P.N + 1)) (term h m (n - P.N + P.M))
termination_by n
decreasing_by
  all_goals have := h.M_lt; have := h.two_le; omega

theorem term_lt (h : Good P) (m : Words P) (n : Nat) (hn : n < P.N) : term h m n = m ⟨n, hn⟩ := by
  rw [term, dif_pos hn]

theorem term_add (h : Good P) (m : Words P) (n : Nat) : term h m (n + P.N) =
    twist P (term h m n) (term h m (n + 1)) (term h m (n + P.M)) := by
  rw [term, dif_neg (by omega)]
  simp only [Nat.add_sub_cancel]

/-- the array after the first `i` words have been replaced -/
def mixed (h : Good P) (m : Words P) (i : Nat) : Words P := fun j =>
  if j.val < i then term h m (P.N + j.val) else term h m j.val

theorem read_mixed (h : Good P) (m : Words P) (i : Nat) (j : Nat) (hj : j < P.N) :
    read (mixed h m i) (j : Int) = some (if j < i then term h m (P.N + j) else term h m j) := by
  rw [read, dif_pos ⟨by omega, by omega⟩]
  rfl

theorem update_mixed (h : Good P) (m : Words P) (i j k : Nat) (hi : i < P.N) (hj : j < P.N) (hk : k < P.N)
    (ej : (if j < i then term h m (P.N + j) else term h m j) = term h m (i + 1))
    (ek : (if k < i then term h m (P.N + k) else term h m k) = term h m (i + P.M)) :
    update (mixed h m i) i j k = some (mixed h m (i + 1)) := by
  simp only [update, Option.bind_eq_bind]
  rw [read_mixed h m i i hi, read_mixed h m i j hj, read_mixed h m i k hk, ej, ek, if_neg (lt_irrefl i)]
  simp only [Option.bind_some]
  rw [write, if_pos ⟨by omega, by omega⟩]
  congr 1
  funext q
  by_cases hq : q.val = i
  · have e1 : ((q.val : Int) = (i : Int)) := by omega
    rw [if_pos e1]
    simp only [mixed, hq, if_pos (Nat.lt_succ_self i)]
    rw [Nat.add_comm P.N i, term_add]
    rfl
  · have e1 : ¬ ((q.val : Int) = (i : Int)) := by omega
    rw [if_neg e1]
    simp only [mixed]
    by_cases hlt : q.val < i
    · rw [if_pos hlt, if_pos (by omega)]
    · rw [if_neg hlt, if_neg (by omega)]

theorem foldlM_mixed (h : Good P) (m : Words P) (f : Words P → Nat → Option (Words P)) (s n : Nat)
    (hf : ∀ i, s ≤ i → i < s + n → f (mixed h m i) i = some (mixed h m (i + 1))) :
    (List.range' s n).foldlM f (mixed h m s) = some (mixed h m (s + n)) := by
  induction n generalizing s with
  | zero => rfl
  | succ n ih =>
    rw [List.range'_succ, List.foldlM_cons, hf s le_rfl (by omega)]
    show (List.range' (s + 1) n).foldlM f (mixed h m (s + 1)) = _
    rw [ih (s + 1) (fun i h1 h2 => hf i (by omega) (by omega))]
    congr 2
    omega

theorem mixed_zero (h : Good P) (m : Words P) : mixed h m 0 = m := by
  funext j
  simp only [mixed, Nat.not_lt_zero, if_false]
  rw [term_lt h m j.val j.isLt]

theorem refill_eq (h : Good P) (m : Words P) : refill m = some fun j => term h m (P.N + j.val) := by
  have h1 := h.M_pos
  have h2 := h.M_lt
  have h3 := h.two_le
  have e1 : (List.range (P.N - P.M)).foldlM
      (fun (m : Words P) (i : Nat) => update m i (i + 1) (i + (P.M : Int))) m = some (mixed h m (P.N - P.M)) := by
    have := foldlM_mixed h m (fun (m : Words P) (i : Nat) => update m i (i + 1) (i + (P.M : Int))) 0 (P.N - P.M) ?_
    · rw [mixed_zero, Nat.zero_add, ← List.range_eq_range'] at this
      exact this
    · intro i _ hi
      have := update_mixed h m i (i + 1) (i + P.M) (by omega) (by omega) (by omega)
        (by rw [if_neg (by omega)]) (by rw [if_neg (by omega)])
      simpa using this
  have e2 : (List.range' (P.N - P.M) (P.N - 1 - (P.N - P.M))).foldlM
      (fun (m : Words P) (i : Nat) => update m i (i + 1) (i + ((P.M : Int) - (P.N : Int)))) (mixed h m (P.N - P.M)) =
      some (mixed h m (P.N - 1)) := by
    have := foldlM_mixed h m (fun (m : Words P) (i : Nat) => update m i (i + 1) (i + ((P.M : Int) - (P.N : Int))))
      (P.N - P.M) (P.N - 1 - (P.N - P.M)) ?_
    · rw [this]; congr 2; omega
    · intro i hi1 hi2
      have := update_mixed h m i (i + 1) (i + P.M - P.N) (by omega) (by omega) (by omega)
        (by rw [if_neg (by omega)])
        (by rw [if_pos (by omega), show P.N + (i + P.M - P.N) = i + P.M by omega])
      have e : ((i + P.M - P.N : Nat) : Int) = i + ((P.M : Int) - P.N) := by omega
      rw [e] at this
      simpa using this
  have e3 : update (mixed h m (P.N - 1)) ((P.N : Int) - 1) 0 ((P.M : Int) - 1) = some (mixed h m P.N) := by
    have := update_mixed h m (P.N - 1) 0 (P.M - 1) (by omega) (by omega) (by omega)
      (by rw [if_pos (by omega), show P.N - 1 + 1 = P.N + 0 by omega])
      (by rw [if_pos (by omega), show P.N + (P.M - 1) = P.N - 1 + P.M by omega])
    rw [show ((P.N - 1 : Nat) : Int) = (P.N : Int) - 1 by omega,
      show ((P.M - 1 : Nat) : Int) = (P.M : Int) - 1 by omega, show P.N - 1 + 1 = P.N by omega] at this
    simpa using this
  simp only [refill, Option.bind_eq_bind]
  rw [e1, Option.bind_some, e2, Option.bind_some, e3]
  congr 1
  funext j
  simp only [mixed, j.isLt, if_true]

/-- the array holds the words number `b`, ..., `b + N - 1` of the sequence `x`, the next value comes
from word number `t` -/
structure Holds (x : Nat → BitVec w) (e : MT P) (b t : Nat) : Prop where
  words : ∀ j : Fin P.N, e.mt j = x (b + j.val)
  pos : e.mti = (t : Int) - b
  le : b ≤ t
  ge : t ≤ b + P.N

theorem term_shift (h : Good P) (x : Nat → BitVec w)
    (hx : ∀ n, x (n + P.N) = twist P (x n) (x (n + 1)) (x (n + P.M))) (b : Nat) (m : Words P)
    (hm : ∀ j : Fin P.N, m j = x (b + j.val)) (n : Nat) : term h m n = x (b + n) := by
  induction n using Nat.strong_induction_on with
  | _ n ih =>
    by_cases hn : n < P.N
    · rw [term_lt h m n hn, hm]
    · obtain ⟨k, rfl⟩ : ∃ k, n = k + P.N := ⟨n - P.N, by omega⟩
      have := h.M_lt
      have := h.two_le
      rw [term_add, ih k (by omega), ih (k + 1) (by omega), ih (k + P.M) (by omega),
        show b + (k + P.N) = b + k + P.N by omega, hx, Nat.add_assoc, Nat.add_assoc]

theorem Holds.call (h : Good P) {x : Nat → BitVec w}
    (hx : ∀ n, x (n + P.N) = twist P (x n) (x (n + 1)) (x (n + P.M))) {e : MT P} {b t : Nat}
    (he : Holds x e b t) : (MT.call e).1 = some (P.temper (x t)) ∧ ∃ b', Holds x (MT.call e).2 b' (t + 1) := by
  have hpos := he.pos
  have hle := he.le
  have hge := he.ge
  have h2 := h.two_le
  by_cases hN : e.mti ≥ P.N
  · have hm : refill e.mt = some fun j : Fin P.N => x (b + P.N + j.val) := by
      rw [refill_eq h]
      congr 1
      funext j
      rw [term_shift h x hx b e.mt he.words, Nat.add_assoc]
    have hr : read (P := P) (fun j : Fin P.N => x (b + P.N + j.val)) 0 = some (x t) := by
      rw [read, dif_pos ⟨le_rfl, by omega⟩]
      show some (x (b + P.N + (0 : Int).toNat)) = _
      rw [show b + P.N + (0 : Int).toNat = t by simp; omega]
    have e1 : MT.call e = (some (P.temper (x t)), ⟨0 + 1, fun j : Fin P.N => x (b + P.N + j.val)⟩) := by
      rw [MT.call]
      simp only
      rw [if_pos hN, hm]
      simp only
      rw [hr]
    rw [e1]
    exact ⟨rfl, b + P.N, ⟨fun _ => rfl, by show (0 + 1 : Int) = _; omega, by omega, by omega⟩⟩
  · have hr : read e.mt e.mti = some (x t) := by
      rw [read, dif_pos ⟨by omega, by omega⟩, he.words]
      simp only
      congr 2
      omega
    have e1 : MT.call e = (some (P.temper (x t)), { e with mti := e.mti + 1 }) := by
      rw [MT.call]
      simp only
      rw [if_neg hN, hr]
    rw [e1]
    exact ⟨rfl, b, ⟨he.words, by show e.mti + 1 = _; omega, by omega, by omega⟩⟩

theorem Holds.afterCalls (h : Good P) {x : Nat → BitVec w}
    (hx : ∀ n, x (n + P.N) = twist P (x n) (x (n + 1)) (x (n + P.M))) (n : Nat) {e : MT P} {b t : Nat}
    (he : Holds x e b t) : ∃ b', Holds x (Spec.afterCalls MT.call n e) b' (t + n) := by
  induction n generalizing e b t with
  | zero => exact ⟨b, he⟩
  | succ n ih =>
    obtain ⟨b1, h1⟩ := (he.call h hx).2
    obtain ⟨b2, h2⟩ := ih h1
    exact ⟨b2, by rw [show t + (n + 1) = t + 1 + n by omega]; exact h2⟩

theorem Holds.nth (h : Good P) {x : Nat → BitVec w}
    (hx : ∀ n, x (n + P.N) = twist P (x n) (x (n + 1)) (x (n + P.M))) (n : Nat) {e : MT P} {b t : Nat}
    (he : Holds x e b t) : Spec.nth MT.call e n = some (P.temper (x (t + n))) := by
  obtain ⟨b', hb⟩ := he.afterCalls h hx n
  exact (hb.call h hx).1

theorem holds_self (h : Good P) (e : MT P) (h0 : 0 ≤ e.mti) (h1 : e.mti ≤ P.N) :
    Holds (term h e.mt) e 0 e.mti.toNat :=
  ⟨fun j => by rw [Nat.zero_add, term_lt h e.mt j.val j.isLt], by omega, by omega, by omega⟩

/-! ### tempering -/

instance : Finite (BitVec w) := Finite.of_equiv _ BitVec.equivFin.toEquiv.symm

theorem shl_inj (s : Nat) (hs : 0 < s) (b : BitVec w) : Function.Injective fun x : BitVec w => x ^^^ ((x <<< s) &&& b) := by
  intro x y hxy
  simp only at hxy
  have key : ∀ i, i < w → x.getLsbD i = y.getLsbD i := by
    intro i
    induction i using Nat.strong_induction_on with
    | _ i ih =>
      intro hi
      have e := congrArg (fun z => z.getLsbD i) hxy
      simp only [BitVec.getLsbD_xor, BitVec.getLsbD_and, BitVec.getLsbD_shiftLeft, hi, decide_true, Bool.true_and] at e
      by_cases his : i < s
      · simp only [his, decide_true, Bool.not_true, Bool.false_and, Bool.xor_false] at e
        exact e
      · rw [ih (i - s) (by omega) (by omega)] at e
        exact Bool.xor_right_inj.1 (by rwa [Bool.xor_comm, Bool.xor_comm (y.getLsbD i)] at e)
  exact BitVec.eq_of_getLsbD_eq key

theorem shr_inj (s : Nat) (hs : 0 < s) (b : BitVec w) : Function.Injective fun x : BitVec w => x ^^^ ((x >>> s) &&& b) := by
  intro x y hxy
  simp only at hxy
  have key : ∀ d i, i + d = w → x.getLsbD i = y.getLsbD i := by
    intro d
    induction d using Nat.strong_induction_on with
    | _ d ih =>
      intro i hi
      have e := congrArg (fun z => z.getLsbD i) hxy
      simp only [BitVec.getLsbD_xor, BitVec.getLsbD_and, BitVec.getLsbD_ushiftRight] at e
      by_cases his : w ≤ s + i
      · rw [BitVec.getLsbD_of_ge x (s + i) his, BitVec.getLsbD_of_ge y (s + i) his] at e
        simpa using e
      · rw [ih (w - (s + i)) (by omega) (s + i) (by omega)] at e
        exact Bool.xor_right_inj.1 (by rwa [Bool.xor_comm, Bool.xor_comm (y.getLsbD i)] at e)
  exact BitVec.eq_of_getLsbD_eq fun i hi => key (w - i) i (by omega)

theorem and_allOnes_shr (x : BitVec w) (s : Nat) : x ^^^ (x >>> s) = x ^^^ ((x >>> s) &&& BitVec.allOnes w) := by
  rw [BitVec.and_allOnes]

theorem temper32_inj : Function.Injective temper32 := by
  intro x y h
  simp only [temper32] at h
  rw [and_allOnes_shr, and_allOnes_shr _ 18] at h
  have h := shr_inj 18 (by omega) _ h
  have h := shl_inj 15 (by omega) _ h
  have h := shl_inj 7 (by omega) _ h
  rw [and_allOnes_shr, and_allOnes_shr y] at h
  exact shr_inj 11 (by omega) _ h

theorem temper64_inj : Function.Injective temper64 := by
  intro x y h
  simp only [temper64] at h
  rw [and_allOnes_shr, and_allOnes_shr _ 43] at h
  have h := shr_inj 43 (by omega) _ h
  have h := shl_inj 37 (by omega) _ h
  have h := shl_inj 17 (by omega) _ h
  exact shr_inj 29 (by omega) _ h

end Trng.MT
