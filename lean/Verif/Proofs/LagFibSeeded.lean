import Verif.Spec.LagFibWords
import Verif.Proofs.LagFibWords
import Verif.Proofs.Minstd

/-! The first words of a default constructed lagged Fibonacci engine with `^`, and a check that their bits are independent. -/
namespace Trng.LagFibSeeded
open LinAlg LagFib Spec LagFibWords

/-- the word that is seeded when the state of the source is `B` -/
def wordFrom (w B : ℕ) : ℕ :=
  (List.range w).foldl (fun r j => 2 * r + if 1073741824 < B * 16807 ^ (j + 1) % 2147483647 then 1 else 0) 0

/-- word number `k` of the words that are seeded from the state `B` of the source on -/
def natWord (w k B : ℕ) : ℕ := wordFrom w (B * 16807 ^ (k * w) % 2147483647)

/-- exclusive or of the numbers that are selected by the bits of `m` -/
def sel : List ℕ → ℕ → ℕ
  | [], _ => 0
  | x :: xs, m => (if m % 2 = 1 then x else 0) ^^^ sel xs (m / 2)

/-- `outs` are the first outputs, and each single bit is an exclusive or of some of them. -/
def ok (P : Params) (w : ℕ) (bs outs masks : List ℕ) : Bool :=
  decide (bs = P.all.map fun l => 16807 ^ ((P.last - l) * w) % 2147483647) &&
  decide (outs = (List.range outs.length).map fun k => (bs.map (natWord w k)).foldl (· ^^^ ·) 0) &&
  decide (∀ l ∈ P.all, outs.length ≤ l) && decide (masks.map (sel outs) = (List.range w).map (2 ^ ·))

theorem source (k : ℕ) : (minstdSource 0).g k = 16807 ^ (k + 1) % 2147483647 := by
  show (Minstd.step (Nat.repeat Minstd.step k (Minstd.default.seed 0))).r.toNat = _
  rw [Minstd.repeat_eq, ← Function.iterate_succ_apply' Minstd.step, Minstd.step_iterate_toNat _ (by decide)]
  rw [show (Minstd.default.seed 0).r.toNat = 1 by decide, mul_one]
  rfl

theorem shl_ofNat {w : ℕ} (r c : ℕ) : (BitVec.ofNat w r) <<< 1 + BitVec.ofNat w c = BitVec.ofNat w (2 * r + c) := by
  apply BitVec.eq_of_toNat_eq
  simp [BitVec.toNat_shiftLeft, Nat.shiftLeft_eq]
  rw [mul_comm]

theorem word {w : ℕ} (n k : ℕ) : seedWord (minstdSource 0) w ((n + k) * w) = BitVec.ofNat w (natWord w k (16807 ^ (n * w) % 2147483647)) := by
  rw [seedWord, natWord, wordFrom]
  have : ∀ (l : List ℕ) (r : ℕ), l.foldl (fun (r : BitVec w) j =>
      let r := r <<< 1
      if (minstdSource 0).g ((n + k) * w + j) - (minstdSource 0).min > (minstdSource 0).max / 2 then r + 1 else r) (BitVec.ofNat w r) =
      BitVec.ofNat w (l.foldl (fun r j => 2 * r + if 1073741824 < 16807 ^ (n * w) % 2147483647 * 16807 ^ (k * w) % 2147483647 * 16807 ^ (j + 1) % 2147483647 then 1 else 0) r) := fun l => by
    induction l with
    | nil => exact fun r => rfl
    | cons j l ih =>
      intro r
      rw [List.foldl_cons, List.foldl_cons, ← ih]
      congr 1
      have e1 : (minstdSource 0).g ((n + k) * w + j) = 16807 ^ (n * w) % 2147483647 * 16807 ^ (k * w) % 2147483647 * 16807 ^ (j + 1) % 2147483647 := by
        rw [source, Nat.mod_mul_mod, mul_assoc, Nat.mod_mul_mod, ← pow_add, ← pow_add]
        congr 2
        ring
      rw [e1]
      have hm : (minstdSource 0).min = 1 := rfl
      have hM : (minstdSource 0).max = 2147483646 := rfl
      rw [hm, hM]
      generalize 16807 ^ (n * w) % 2147483647 * 16807 ^ (k * w) % 2147483647 * 16807 ^ (j + 1) % 2147483647 = x
      by_cases hx : 1073741824 < x
      · rw [if_pos (show x - 1 > 2147483646 / 2 by omega), if_pos hx, ← shl_ofNat]; rfl
      · rw [if_neg (show ¬ (x - 1 > 2147483646 / 2) by omega), if_neg hx, ← shl_ofNat]; simp
  exact this (List.range w) 0

theorem ofNat_xor' {w : ℕ} (a b : ℕ) : BitVec.ofNat w (a ^^^ b) = BitVec.ofNat w a ^^^ BitVec.ofNat w b := by
  apply BitVec.eq_of_getLsbD_eq
  intro i hi
  simp [hi]

theorem ofNat_fold {w : ℕ} (l : List ℕ) (a : ℕ) : BitVec.ofNat w (l.foldl (· ^^^ ·) a) = (l.map (BitVec.ofNat w)).foldl (· ^^^ ·) (BitVec.ofNat w a) := by
  induction l generalizing a with
  | nil => rfl
  | cons x l ih => rw [List.foldl_cons, ih, List.map_cons, List.foldl_cons, ofNat_xor']

variable {P : Params} {w : ℕ}

theorem first (h : Valid P) (hx : P.op = .xor) {k : ℕ} (hk : ∀ l ∈ P.all, k < l) :
    nth call (init : LagFib P w) k = some (BitVec.ofNat w (((P.all.map fun l => 16807 ^ ((P.last - l) * w) % 2147483647).map (natWord w k)).foldl (· ^^^ ·) 0)) := by
  have hls := last_lt_size h
  have h31 := h.bound
  rw [nth_eq h, seqOf_rec, hx, comb_xor, ofNat_fold, List.map_map, List.map_map]
  congr 2
  refine List.map_congr_left fun l hl => ?_
  have h1 := all_range h hl
  have h2 := hk l hl
  rw [seqOf, if_pos (by omega)]
  have hidx : (init : LagFib P w).index.toNat = P.last - 1 := by
    show (BitVec.ofNat 32 P.last - 1).toNat = _
    have : (1 : BitVec 32).toNat = 1 := rfl
    rw [BitVec.toNat_sub, BitVec.toNat_ofNat, this]
    omega
  have hpos : ((init : LagFib P w).index.toNat + (P.size - (P.size - 1 - (P.size + k - l)))) % P.size = P.last - l + k := by
    rw [hidx, show P.last - 1 + (P.size - (P.size - 1 - (P.size + k - l))) = P.last - l + k + P.size by omega, Nat.add_mod_right, Nat.mod_eq_of_lt (by omega)]
  have : hist h (init : LagFib P w) (P.size - 1 - (P.size + k - l)) = seedWord (minstdSource 0) w ((P.last - l + k) * w) := by
    rw [hist]
    show (if _ then _ else _) = _
    simp only [hpos]
    rw [if_pos (by omega)]
  rw [this, word]
  rfl

/-- the parity of the bits in `S` -/
def par (S : Finset (Fin 1 × Fin w)) (x : BitVec w) : GF2 := ∑ p ∈ S, bit p.2.val x

theorem par_xor (S : Finset (Fin 1 × Fin w)) (x y : BitVec w) : par S (x ^^^ y) = par S x + par S y := by
  simp only [par, bit_xor, Finset.sum_add_distrib]

theorem par_zero (S : Finset (Fin 1 × Fin w)) : par S (0 : BitVec w) = 0 := by simp only [par, bit_zero, Finset.sum_const_zero]

theorem par_sel (S : Finset (Fin 1 × Fin w)) (l : List ℕ) (h : ∀ x ∈ l, par S (BitVec.ofNat w x) = 0) (m : ℕ) : par S (BitVec.ofNat w (sel l m)) = 0 := by
  induction l generalizing m with
  | nil => exact par_zero S
  | cons x l ih =>
    rw [sel, ofNat_xor', par_xor, ih (fun y hy => h y (List.mem_cons_of_mem _ hy)), add_zero]
    split_ifs
    · exact h x List.mem_cons_self
    · exact par_zero S

theorem par_eq (S : Finset (Fin 1 × Fin w)) (x : BitVec w) (he : ¬ Odd (S.filter fun p => x.getLsbD p.2.val = true).card) : par S x = 0 := by
  have : par S x = ((S.filter fun p => x.getLsbD p.2.val = true).card) • (1 : GF2) := by
    rw [← Finset.sum_const, Finset.sum_filter, par]
    refine Finset.sum_congr rfl fun p _ => ?_
    rw [bit]
    cases x.getLsbD p.2.val <;> rfl
  rw [this]
  obtain ⟨j, hj⟩ := Nat.not_odd_iff_even.1 he
  rw [hj, add_smul, LagFib.GF2.add_self]

theorem noRelation (h : Valid P) (hx : P.op = .xor) {bs outs masks : List ℕ} (hok : ok P w bs outs masks = true) : (init : LagFib P w).NoRelation 1 := by
  simp only [ok, Bool.and_eq_true, decide_eq_true_eq] at hok
  obtain ⟨⟨⟨hb, ho⟩, hl⟩, hm⟩ := hok
  rintro S ⟨p, hp⟩
  by_contra hc
  push Not at hc
  have hout : ∀ x ∈ outs, par S (BitVec.ofNat w x) = 0 := fun x hx' => by
    rw [ho, List.mem_map] at hx'
    obtain ⟨k, hk, rfl⟩ := hx'
    rw [List.mem_range] at hk
    refine par_eq S _ fun hodd => hc k ?_
    refine (congrArg (fun s => Odd (Finset.card s)) (Finset.filter_congr fun r _ => ?_)).mpr hodd
    have h0 : r.1.val = 0 := by omega
    rw [h0, Nat.add_zero, first h hx (fun l hl' => lt_of_lt_of_le hk (hl l hl')), ← hb, Option.map_some, Option.some.injEq]
  have hmem : 2 ^ p.2.val ∈ masks.map (sel outs) := by
    rw [hm]
    exact List.mem_map.2 ⟨p.2.val, List.mem_range.2 p.2.isLt, rfl⟩
  obtain ⟨m, -, hm'⟩ := List.mem_map.1 hmem
  have h1 := par_sel S outs hout m
  rw [hm', par, Finset.sum_eq_single p] at h1
  · have : bit p.2.val (BitVec.ofNat w (2 ^ p.2.val)) = 1 := by
      rw [bit, BitVec.getLsbD_ofNat]
      simp
      rfl
    rw [this] at h1
    exact absurd h1 (by decide)
  · intro r _ hr
    have : r.2.val ≠ p.2.val := fun hv => hr (Prod.ext (Subsingleton.elim _ _) (Fin.ext hv))
    rw [bit, BitVec.getLsbD_ofNat]
    simp [this.symm]
    rfl
  · exact fun hn => absurd hp hn

end Trng.LagFibSeeded
