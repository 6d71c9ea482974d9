import Verif.Model.UInt128Text
import Verif.Spec.Numeral
import Mathlib.Data.BitVec
import Mathlib.Tactic.Ring
import Mathlib.Tactic.Linarith
namespace Trng.U128Text
open Spec

def radix : Base → Nat
  | .oct => 8
  | .dec => 10
  | .hex => 16

theorem radix_pos (b : Base) : 0 < radix b := by cases b <;> decide

theorem isDecDigit_iff (c : Char) : isDecDigit c = true ↔ IsDigit 10 c := by
  simp only [isDecDigit, Bool.and_eq_true, decide_eq_true_eq, IsDigit, digitVal, Char.reduceToNat]
  split <;> try split <;> try split
  all_goals omega

theorem isOctDigit_iff (c : Char) : isOctDigit c = true ↔ IsDigit 8 c := by
  simp only [isOctDigit, Bool.and_eq_true, decide_eq_true_eq, IsDigit, digitVal, Char.reduceToNat]
  split <;> try split <;> try split
  all_goals omega

theorem isHexDigit_iff (c : Char) : isHexDigit c = true ↔ IsDigit 16 c := by
  simp only [isHexDigit, Bool.and_eq_true, Bool.or_eq_true, decide_eq_true_eq, IsDigit, digitVal,
    Char.reduceToNat]
  split <;> try split <;> try split
  all_goals omega

theorem decDigit_eq (c : Char) (h : IsDigit 10 c) : decDigit c = BitVec.ofNat 128 (digitVal c) := by
  simp only [IsDigit, digitVal, decDigit, Char.reduceToNat] at *
  congr 1
  split at h
  · rw [if_pos (by assumption)]
  · split at h
    · omega
    · split at h <;> omega

theorem hexDigit_eq (c : Char) (h : IsDigit 16 c) : hexDigit c = BitVec.ofNat 128 (digitVal c) := by
  simp only [IsDigit, digitVal, hexDigit, Char.reduceToNat] at *
  by_cases h1 : 48 ≤ c.toNat ∧ c.toNat ≤ 57
  · simp only [h1, and_self, if_true]
  · by_cases h2 : 97 ≤ c.toNat ∧ c.toNat ≤ 102
    · simp only [h1, h2, and_self, if_true, if_false]
      congr 1; omega
    · by_cases h3 : 65 ≤ c.toNat ∧ c.toNat ≤ 70
      · simp only [h1, h2, h3, and_self, if_true, if_false]
        congr 1; omega
      · simp only [h1, h2, h3, if_false] at h; omega

theorem _root_.Trng.Spec.IsDigit.mono {a b : Nat} (h : a ≤ b) {c : Char} (hc : IsDigit a c) : IsDigit b c :=
  Nat.lt_of_lt_of_le hc h

/-- value after appending digits to an accumulator -/
def accum (b acc : Nat) (cs : List Char) : Nat := cs.foldl (fun v c => v * b + digitVal c) acc

theorem accum_ge (b acc : Nat) (hb : 0 < b) (cs : List Char) : acc ≤ accum b acc cs := by
  induction cs generalizing acc with
  | nil => exact le_rfl
  | cons c cs ih =>
    refine le_trans ?_ (ih _)
    calc acc = acc * 1 := by ring
      _ ≤ acc * b := Nat.mul_le_mul_left _ hb
      _ ≤ _ := Nat.le_add_right _ _

theorem not_isSpace_of_digit {c : Char} (h : IsDigit 16 c) : isSpace c = false := by
  rw [Bool.eq_false_iff]
  intro hs
  simp only [isSpace, Bool.or_eq_true, beq_iff_eq] at hs
  rcases hs with ((((rfl | rfl) | rfl) | rfl) | rfl) | rfl <;> revert h <;> decide

/-! generic step lemmas in terms of naturals -/

theorem ofNat_lt_iff {a k : Nat} (ha : a < 2 ^ 128) (hk : k < 2 ^ 128) :
    BitVec.ofNat 128 a ≥ BitVec.ofNat 128 k ↔ k ≤ a := by
  rw [ge_iff_le, BitVec.le_def, BitVec.toNat_ofNat, BitVec.toNat_ofNat, Nat.mod_eq_of_lt ha,
    Nat.mod_eq_of_lt hk]

theorem octLoop_eq (cs rest : List Char) (hr : EndsNumeral 8 rest) (acc : Nat)
    (hacc : acc < 2 ^ 128) (hcs : ∀ c ∈ cs, IsDigit 8 c) :
    octLoop (cs ++ rest) (BitVec.ofNat 128 acc) =
      if accum 8 acc cs < 2 ^ 128 then some (BitVec.ofNat 128 (accum 8 acc cs), rest) else none := by
  induction cs generalizing acc with
  | nil =>
    rw [accum, List.foldl_nil, if_pos hacc, List.nil_append]
    cases rest with
    | nil => rfl
    | cons c rest =>
      have : ¬ isOctDigit c = true := by
        rw [isOctDigit_iff]; exact hr c (by simp)
      simp [octLoop, this]
  | cons c cs ih =>
    have hc := hcs c (by simp)
    rw [List.cons_append, octLoop, if_pos ((isOctDigit_iff c).2 hc)]
    have hd : digitVal c < 8 := hc
    have e := ofNat_lt_iff hacc (k := 0x20000000000000000000000000000000) (by norm_num)
    have hacc' : accum 8 acc (c :: cs) = accum 8 (acc * 8 + digitVal c) cs := rfl
    by_cases hov : 0x20000000000000000000000000000000 ≤ acc
    · rw [if_pos (e.2 hov), if_neg]
      rw [hacc']
      have := accum_ge 8 (acc * 8 + digitVal c) (by omega) cs
      omega
    · rw [if_neg (mt e.1 hov), decDigit_eq c (hc.mono (by omega)), hacc',
        show BitVec.ofNat 128 acc * 8 + BitVec.ofNat 128 (digitVal c) =
          BitVec.ofNat 128 (acc * 8 + digitVal c) by
            rw [BitVec.ofNat_add, BitVec.ofNat_mul]; rfl]
      exact ih _ (by omega) (fun c h => hcs c (by simp [h]))

theorem decLoop_eq (cs rest : List Char) (hr : EndsNumeral 10 rest) (acc : Nat)
    (hacc : acc < 2 ^ 128) (hcs : ∀ c ∈ cs, IsDigit 10 c) :
    decLoop (cs ++ rest) (BitVec.ofNat 128 acc) =
      if accum 10 acc cs < 2 ^ 128 then some (BitVec.ofNat 128 (accum 10 acc cs), rest)
      else none := by
  induction cs generalizing acc with
  | nil =>
    rw [accum, List.foldl_nil, if_pos hacc, List.nil_append]
    cases rest with
    | nil => rfl
    | cons c rest =>
      have : ¬ isDecDigit c = true := by
        rw [isDecDigit_iff]; exact hr c (by simp)
      simp [decLoop, this]
  | cons c cs ih =>
    have hc := hcs c (by simp)
    rw [List.cons_append, decLoop, if_pos ((isDecDigit_iff c).2 hc)]
    have hd : digitVal c < 10 := hc
    have e := ofNat_lt_iff hacc (k := 0x1999999999999999999999999999999a) (by norm_num)
    have hacc' : accum 10 acc (c :: cs) = accum 10 (acc * 10 + digitVal c) cs := rfl
    by_cases hov : 0x1999999999999999999999999999999a ≤ acc
    · rw [if_pos (e.2 hov), if_neg]
      rw [hacc']
      have := accum_ge 10 (acc * 10 + digitVal c) (by omega) cs
      omega
    · rw [if_neg (mt e.1 hov), decDigit_eq c hc, hacc']
      simp only
      have hm : BitVec.ofNat 128 acc * 10 = BitVec.ofNat 128 (acc * 10) := by
        rw [BitVec.ofNat_mul]; rfl
      have hcond : (BitVec.ofNat 128 (digitVal c) >
          0xffffffffffffffffffffffffffffffff#128 - BitVec.ofNat 128 (acc * 10)) ↔
          2 ^ 128 ≤ acc * 10 + digitVal c := by
        rw [gt_iff_lt, BitVec.lt_def, BitVec.toNat_sub]
        simp only [BitVec.toNat_ofNat]
        omega
      rw [hm]
      by_cases hov2 : 2 ^ 128 ≤ acc * 10 + digitVal c
      · rw [if_pos (hcond.2 hov2), if_neg]
        have := accum_ge 10 (acc * 10 + digitVal c) (by omega) cs
        omega
      · rw [if_neg (mt hcond.1 hov2), ← BitVec.ofNat_add]
        exact ih _ (by omega) (fun c h => hcs c (by simp [h]))

theorem digit_not_basechar {c : Char} (h : IsDigit 16 c) : isHexBaseChar c = false := by
  rw [Bool.eq_false_iff]
  intro hs
  simp only [isHexBaseChar, Bool.or_eq_true, beq_iff_eq] at hs
  rcases hs with rfl | rfl <;> revert h <;> decide

theorem hexLoop_eq (cs rest : List Char) (hr : EndsNumeral 16 rest)
    (hx : ∀ c ∈ rest.head?, isHexBaseChar c = false) (pos acc : Nat)
    (hacc : acc < 2 ^ 128) (hcs : ∀ c ∈ cs, IsDigit 16 c) :
    hexLoop (cs ++ rest) pos (BitVec.ofNat 128 acc) =
      if accum 16 acc cs < 2 ^ 128 then some (BitVec.ofNat 128 (accum 16 acc cs), rest)
      else none := by
  induction cs generalizing pos acc with
  | nil =>
    rw [accum, List.foldl_nil, if_pos hacc, List.nil_append]
    cases rest with
    | nil => rfl
    | cons c rest =>
      have h1 : isHexDigit c = false := by
        rw [Bool.eq_false_iff, Ne, isHexDigit_iff]; exact hr c (by simp)
      have h2 := hx c (by simp)
      simp [hexLoop, h1, h2]
  | cons c cs ih =>
    have hc := hcs c (by simp)
    have h1 := (isHexDigit_iff c).2 hc
    have h2 := digit_not_basechar hc
    rw [List.cons_append, hexLoop]
    simp only [h1, h2, Bool.and_false, Bool.or_false, if_true, Bool.false_eq_true, if_false]
    have hd : digitVal c < 16 := hc
    have e := ofNat_lt_iff hacc (k := 0x10000000000000000000000000000000) (by norm_num)
    have hacc' : accum 16 acc (c :: cs) = accum 16 (acc * 16 + digitVal c) cs := rfl
    by_cases hov : 0x10000000000000000000000000000000 ≤ acc
    · rw [if_pos (e.2 hov), if_neg]
      rw [hacc']
      have := accum_ge 16 (acc * 16 + digitVal c) (by omega) cs
      omega
    · rw [if_neg (mt e.1 hov), hexDigit_eq c hc, hacc',
        show BitVec.ofNat 128 acc * 16 + BitVec.ofNat 128 (digitVal c) =
          BitVec.ofNat 128 (acc * 16 + digitVal c) by
            rw [BitVec.ofNat_add, BitVec.ofNat_mul]; rfl]
      exact ih _ _ (by omega) (fun c h => hcs c (by simp [h]))

/-! reading a numeral -/

/-- what may follow a numeral -/
def Terminates (b : Base) (rest : List Char) : Prop :=
  EndsNumeral (radix b) rest ∧ (b = .hex → ∀ c ∈ rest.head?, c ≠ 'x' ∧ c ≠ 'X')

theorem read_numeral (b : Base) (cs rest : List Char) (hne : cs ≠ [])
    (hcs : ∀ c ∈ cs, IsDigit (radix b) c) (hr : Terminates b rest) :
    read b (cs ++ rest) = if numeral (radix b) cs < 2 ^ 128
      then some (BitVec.ofNat 128 (numeral (radix b) cs), rest) else none := by
  obtain ⟨c, cs, rfl⟩ := List.exists_cons_of_ne_nil hne
  have hc := hcs c (by simp)
  have hsp : isSpace c = false := not_isSpace_of_digit (hc.mono (by cases b <;> decide))
  have hdrop : (c :: cs ++ rest).dropWhile isSpace = c :: cs ++ rest := by
    rw [List.cons_append, List.dropWhile_cons_of_neg (by simp [hsp])]
  unfold read
  rw [hdrop]
  cases b with
  | oct =>
    show (if isOctDigit c then _ else none) = _
    rw [if_pos ((isOctDigit_iff c).2 hc)]
    exact octLoop_eq (c :: cs) rest hr.1 0 (by norm_num) hcs
  | dec =>
    show (if isDecDigit c then _ else none) = _
    rw [if_pos ((isDecDigit_iff c).2 hc)]
    exact decLoop_eq (c :: cs) rest hr.1 0 (by norm_num) hcs
  | hex =>
    show (if isHexDigit c then _ else none) = _
    rw [if_pos ((isHexDigit_iff c).2 hc)]
    refine hexLoop_eq (c :: cs) rest hr.1 (fun c h => ?_) 0 0 (by norm_num) hcs
    have := hr.2 rfl c h
    simp [isHexBaseChar, this.1, this.2]

/-! printing -/

theorem toHex_spec (x : Nat) (hx : x < 16) (u : Bool) : digitVal (toHex x u) = x := by
  have : ∀ x < 16, ∀ u, digitVal (toHex x u) = x := by decide
  exact this x hx u

theorem ofNat_dec_spec (x : Nat) (hx : x < 10) : digitVal (Char.ofNat (x + '0'.toNat)) = x := by
  have : ∀ x < 10, digitVal (Char.ofNat (x + '0'.toNat)) = x := by decide
  exact this x hx

/-- a digit character of value `x` as the three loops produce it -/
theorem digitLoop_step (b : Base) (u : Bool) (fuel : Nat) (v : BitVec 128) (ds : List Char)
    (hv : v ≠ 0) : ∃ c, digitVal c = v.toNat % radix b ∧
      digitLoop b u (fuel + 1) v ds =
        digitLoop b u fuel (BitVec.ofNat 128 (v.toNat / radix b)) (c :: ds) := by
  have hpos : v > 0 := by
    rw [gt_iff_lt, BitVec.lt_def]
    have : v.toNat ≠ 0 := fun h => hv (BitVec.eq_of_toNat_eq (by simpa using h))
    simpa using Nat.pos_of_ne_zero this
  have hlt := v.isLt
  cases b with
  | oct =>
    rw [digitLoop, if_pos hpos]
    have e1 : (v &&& 7).toNat = v.toNat % 8 := by
      rw [BitVec.toNat_and]; exact Nat.and_two_pow_sub_one_eq_mod _ 3
    have e2 : v >>> 3 = BitVec.ofNat 128 (v.toNat / 8) := by
      apply BitVec.eq_of_toNat_eq
      rw [BitVec.toNat_ushiftRight, Nat.shiftRight_eq_div_pow, BitVec.toNat_ofNat]
      omega
    refine ⟨toHex (v &&& 7).toNat u, ?_, by simp only [radix, e2]⟩
    rw [e1, toHex_spec _ (by omega)]; rfl
  | dec =>
    rw [digitLoop, if_pos hpos]
    have e1 : (v % 10).toNat = v.toNat % 10 := by rw [BitVec.toNat_umod]; rfl
    have e2 : v / 10 = BitVec.ofNat 128 (v.toNat / 10) := by
      apply BitVec.eq_of_toNat_eq
      rw [BitVec.toNat_udiv, BitVec.toNat_ofNat, show (10 : BitVec 128).toNat = 10 from rfl]
      omega
    refine ⟨Char.ofNat ((v % 10).toNat + '0'.toNat), ?_, by simp only [radix, e2]⟩
    rw [e1, ofNat_dec_spec _ (by omega)]; rfl
  | hex =>
    rw [digitLoop, if_pos hpos]
    have e1 : (v &&& 15).toNat = v.toNat % 16 := by
      rw [BitVec.toNat_and]; exact Nat.and_two_pow_sub_one_eq_mod _ 4
    have e2 : v >>> 4 = BitVec.ofNat 128 (v.toNat / 16) := by
      apply BitVec.eq_of_toNat_eq
      rw [BitVec.toNat_ushiftRight, Nat.shiftRight_eq_div_pow, BitVec.toNat_ofNat]
      omega
    refine ⟨toHex (v &&& 15).toNat u, ?_, by simp only [radix, e2]⟩
    rw [e1, toHex_spec _ (by omega)]; rfl

theorem accum_append (b acc : Nat) (xs ys : List Char) :
    accum b acc (xs ++ ys) = accum b (accum b acc xs) ys := List.foldl_append

theorem digitLoop_spec (b : Base) (u : Bool) (fuel : Nat) (v : BitVec 128) (ds : List Char)
    (h : v.toNat < 2 ^ fuel) :
    ∃ xs, digitLoop b u fuel v ds = xs ++ ds ∧ (∀ c ∈ xs, IsDigit (radix b) c) ∧
      numeral (radix b) xs = v.toNat ∧ (v ≠ 0 → xs ≠ []) := by
  induction fuel generalizing v ds with
  | zero =>
    have : v = 0 := BitVec.eq_of_toNat_eq (by simpa using h)
    subst this
    exact ⟨[], rfl, by simp, rfl, by simp⟩
  | succ fuel ih =>
    by_cases hv : v = 0
    · subst hv
      exact ⟨[], by simp [digitLoop], by simp, rfl, by simp⟩
    · obtain ⟨c, hc, hstep⟩ := digitLoop_step b u fuel v ds hv
      have hr : 2 ≤ radix b := by cases b <;> decide
      have hdiv : v.toNat / radix b < 2 ^ fuel := by
        have : v.toNat / radix b ≤ v.toNat / 2 := Nat.div_le_div_left hr (by omega)
        omega
      have hv' : (BitVec.ofNat 128 (v.toNat / radix b)).toNat = v.toNat / radix b := by
        rw [BitVec.toNat_ofNat]
        apply Nat.mod_eq_of_lt
        exact Nat.lt_of_le_of_lt (Nat.div_le_self _ _) v.isLt
      obtain ⟨xs, h1, h2, h3, -⟩ := ih (BitVec.ofNat 128 (v.toNat / radix b)) (c :: ds)
        (by rw [hv']; exact hdiv)
      refine ⟨xs ++ [c], by rw [hstep, h1]; simp, ?_, ?_, by simp⟩
      · intro x hx
        rcases List.mem_append.1 hx with hx | hx
        · exact h2 x hx
        · rw [List.mem_singleton] at hx; subst hx
          rw [IsDigit, hc]; exact Nat.mod_lt _ (radix_pos b)
      · have : numeral (radix b) (xs ++ [c]) = numeral (radix b) xs * radix b + digitVal c :=
          accum_append _ _ _ _
        rw [this, h3, hv', hc]
        exact Nat.div_add_mod' _ _

theorem digits_spec (b : Base) (u : Bool) (v : BitVec 128) :
    (∀ c ∈ digits b u v, IsDigit (radix b) c) ∧ numeral (radix b) (digits b u v) = v.toNat ∧
      digits b u v ≠ [] := by
  unfold digits
  by_cases hv : v = 0
  · subst hv
    rw [if_pos rfl]
    cases b <;> decide
  · rw [if_neg hv]
    obtain ⟨xs, h1, h2, h3, h4⟩ := digitLoop_spec b u 128 v [] v.isLt
    rw [List.append_nil] at h1
    rw [h1]
    exact ⟨h2, h3, h4 hv⟩

/-- reading a printed number with its base prefix -/
theorem read_base_digits (b : Base) (sb u : Bool) (v : BitVec 128) (rest : List Char)
    (hr : Terminates b rest) :
    read b (basePrefix b sb u ++ digits b u v ++ rest) = some (v, rest) := by
  obtain ⟨h1, h2, h3⟩ := digits_spec b u v
  have hfin : ∀ cs, cs ≠ [] → (∀ c ∈ cs, IsDigit (radix b) c) →
      numeral (radix b) cs = v.toNat → read b (cs ++ rest) = some (v, rest) := by
    intro cs hne hcs hn
    rw [read_numeral b cs rest hne hcs hr, hn, if_pos v.isLt]
    simp
  by_cases hsb : sb = true
  · subst hsb
    cases b with
    | dec => exact hfin _ h3 h1 h2
    | oct =>
      refine hfin ('0' :: digits .oct u v) (by simp) ?_ ?_
      · intro c hc
        rcases List.mem_cons.1 hc with rfl | hc
        · decide
        · exact h1 c hc
      · rw [← h2]; rfl
    | hex =>
      -- "0x" followed by the digits
      have hx : isHexBaseChar (if u then 'X' else 'x') = true := by cases u <;> rfl
      have hx' : isHexDigit (if u then 'X' else 'x') = false := by cases u <;> rfl
      have : read .hex (basePrefix .hex true u ++ digits .hex u v ++ rest) =
          hexLoop (digits .hex u v ++ rest) 2 (BitVec.ofNat 128 0) := by
        simp only [basePrefix, if_true, List.cons_append, List.nil_append]
        unfold read
        rw [List.dropWhile_cons_of_neg (by decide)]
        simp only
        rw [if_pos (by decide), hexLoop]
        simp only [show isHexDigit '0' = true from rfl, Bool.true_or, if_true]
        rw [if_neg (by decide), if_neg (by decide), hexLoop]
        simp only [hx, hx']
        rfl
      rw [this, hexLoop_eq _ rest hr.1 ?_ 2 0 (by norm_num) h1]
      · have h2' : accum 16 0 (digits .hex u v) = v.toNat := h2
        rw [h2', if_pos v.isLt]; simp
      · intro c hc
        have := hr.2 rfl c hc
        simp [isHexBaseChar, this.1, this.2]
  · have : basePrefix b sb u = [] := by simp [basePrefix, hsb]
    rw [this, List.nil_append]
    exact hfin _ h3 h1 h2

theorem read_skip (b : Base) (sp input : List Char) (h : ∀ c ∈ sp, isSpace c = true) :
    read b (sp ++ input) = read b input := by
  induction sp with
  | nil => rfl
  | cons c sp ih =>
    rw [← ih (fun c hc => h c (by simp [hc]))]
    unfold read
    rw [List.cons_append, List.dropWhile_cons_of_pos (h c (by simp))]

end Trng.U128Text
