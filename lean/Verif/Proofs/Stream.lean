import Verif.Spec.Stream
import Verif.Proofs.UInt128Text
import Mathlib.Data.List.Forall2
import Mathlib.Data.Nat.Digits.Lemmas

namespace Trng.Stream
open In StreamSpec Spec
open U128Text (accum accum_append)

theorem good_ok (r : List Char) : good ⟨r, false, false⟩ = true := rfl

theorem dropWhile_head {α : Type} {p : α → Bool} {l k : List α} {c : α} (h : l.dropWhile p = c :: k) : p c = false := by
  induction l with
  | nil => simp at h
  | cons a l ih =>
    by_cases ha : p a = true
    · rw [List.dropWhile_cons_of_pos ha] at h; exact ih h
    · rw [List.dropWhile_cons_of_neg ha] at h
      simp only [List.cons.injEq] at h
      rw [← h.1]; simpa using ha

theorem mem_takeWhile {α : Type} {p : α → Bool} {l : List α} {c : α} (h : c ∈ l.takeWhile p) : p c = true := by
  induction l with
  | nil => simp at h
  | cons a l ih =>
    by_cases ha : p a = true
    · rw [List.takeWhile_cons_of_pos ha] at h
      rcases List.mem_cons.1 h with rfl | h
      · exact ha
      · exact ih h
    · rw [List.takeWhile_cons_of_neg ha] at h; simp at h

/-! ### Characters and numerals -/

theorem isDigit_iff (c : Char) : isDigit c = true ↔ IsDigit 10 c := U128Text.isDecDigit_iff c

theorem isDigit_false {c : Char} (h : ¬ IsDigit 10 c) : isDigit c = false := by
  rw [← Bool.not_eq_true, isDigit_iff]; exact h

theorem digitVal_eq {c : Char} (h : IsDigit 10 c) : c.toNat - '0'.toNat = digitVal c := by
  have h' := (isDigit_iff c).2 h
  simp only [isDigit, Bool.and_eq_true, decide_eq_true_eq, Char.reduceToNat] at h'
  rw [digitVal, if_pos h']; rfl

theorem value_eq_aux (ds : List Char) (h : ∀ c ∈ ds, IsDigit 10 c) (a : Nat) :
    ds.foldl (fun v c => v * 10 + (c.toNat - '0'.toNat)) a = ds.foldl (fun v c => v * 10 + digitVal c) a := by
  induction ds generalizing a with
  | nil => rfl
  | cons c ds ih =>
    rw [List.foldl_cons, List.foldl_cons, digitVal_eq (h c (by simp)), ih fun c hc => h c (by simp [hc])]

theorem value_eq {ds : List Char} (h : ∀ c ∈ ds, IsDigit 10 c) : value ds = numeral 10 ds := value_eq_aux ds h 0

theorem numeral_snoc (ds : List Char) (c : Char) : numeral 10 (ds ++ [c]) = numeral 10 ds * 10 + digitVal c := by
  rw [numeral, List.foldl_append]; rfl

theorem decimal_lt {n : Nat} (h : n < 10) : decimal n = [Char.ofNat (48 + n)] := by
  interval_cases n <;> simp [decimal]

theorem decimal_ge {n : Nat} (h : 10 ≤ n) : decimal n = decimal (n / 10) ++ [Char.ofNat (48 + n % 10)] := by
  rw [decimal, if_neg (by omega), decimal, if_neg (by omega), Nat.digits_def' (by norm_num) (by omega)]
  simp

theorem digitChar {d : Nat} (h : d < 10) : digitVal (Char.ofNat (48 + d)) = d := by
  interval_cases d <;> decide

theorem decimal_spec (n : Nat) :
    decimal n ≠ [] ∧ (∀ c ∈ decimal n, IsDigit 10 c) ∧ numeral 10 (decimal n) = n := by
  induction n using Nat.strong_induction_on with
  | _ n ih =>
    by_cases h : n < 10
    · rw [decimal_lt h]
      refine ⟨by simp, ?_, ?_⟩
      · intro c hc
        rw [List.mem_singleton.1 hc, IsDigit, digitChar h]; exact h
      · simp [numeral, digitChar h]
    · obtain ⟨_, h2, h3⟩ := ih (n / 10) (by omega)
      have hd : n % 10 < 10 := by omega
      rw [decimal_ge (by omega)]
      refine ⟨by simp, ?_, ?_⟩
      · intro c hc
        rcases List.mem_append.1 hc with hc | hc
        · exact h2 c hc
        · rw [List.mem_singleton.1 hc, IsDigit, digitChar hd]; exact hd
      · rw [numeral_snoc, h3, digitChar hd]; omega

/-! ### Texts written are texts -/

theorem text_unsigned {w : Nat} (v : BitVec w) : Field.Text (.unsigned w v) (outU v) := by
  obtain ⟨h1, h2, h3⟩ := decimal_spec v.toNat
  refine ⟨[], decimal v.toNat, rfl, h1, h2, by rw [h3]; exact v.isLt, Or.inl ⟨Or.inl rfl, ?_⟩⟩
  rw [h3, BitVec.ofNat_toNat, BitVec.setWidth_eq]

theorem text_int {v : Int} (h1 : -2 ^ 31 ≤ v) (h2 : v < 2 ^ 31) : Field.Text (.int v) (decimalInt v) := by
  obtain ⟨g1, g2, g3⟩ := decimal_spec v.natAbs
  by_cases h : v < 0
  · refine ⟨['-'], decimal v.natAbs, by simp [decimalInt, h], g1, g2, h1, h2, Or.inr ⟨rfl, ?_⟩⟩
    rw [g3]; omega
  · refine ⟨[], decimal v.natAbs, by simp [decimalInt, h], g1, g2, h1, h2, Or.inl ⟨Or.inl rfl, ?_⟩⟩
    rw [g3]; omega

theorem text_uint128 (v : BitVec 128) : Field.Text (.uint128 v) (outU128 v) := by
  obtain ⟨h1, h2, h3⟩ := U128Text.digits_spec .dec false v
  have : outU128 v = U128Text.digits .dec false v := by
    simp [outU128, U128Text.print, U128Text.basePrefix]
  exact ⟨[], _, by rw [this, List.nil_append], by simp, h3, h1, h2⟩

/-! ### Single operations -/

theorem delimC_ok (d : Char) (k : List Char) : delimC d ⟨d :: k, false, false⟩ = ⟨k, false, false⟩ := by
  simp [delimC, getc, good]

theorem delimC_sound {d : Char} {s : In} (h : (delimC d s).fail = false) :
    s.fail = false ∧ s.rest = d :: (delimC d s).rest := by
  obtain ⟨r, e, f⟩ := s
  cases e <;> cases f <;> cases r with
  | nil => simp [delimC, getc, good, setFail] at h
  | cons c r =>
    by_cases hc : c = d
    · simp_all [delimC, getc, good, setFail]
    · simp [delimC, getc, good, setFail, hc] at h

theorem get_fail {s : In} (h : s.fail = true) : s.getc = (none, s.setFail) := by
  simp [getc, good, h]

theorem delimLoop_fail {str : List Char} {s : In} (h : s.fail = true) : (delimLoop str s).2.fail = true := by
  induction str generalizing s with
  | nil => exact h
  | cons d ds ih =>
    simp only [delimLoop, get_fail h]
    exact ih rfl

theorem delimLoop_ok (str k : List Char) :
    delimLoop str ⟨str ++ k, false, false⟩ = (true, ⟨k, false, false⟩) := by
  induction str with
  | nil => rfl
  | cons d ds ih => simpa [delimLoop, getc, good] using ih

theorem delimStr_ok (str k : List Char) : delimStr str ⟨str ++ k, false, false⟩ = ⟨k, false, false⟩ := by
  simp [delimStr, delimLoop_ok]

theorem get_none {s t : In} (h : s.getc = (none, t)) : t.fail = true := by
  obtain ⟨r, e, f⟩ := s
  cases e <;> cases f <;> cases r <;> simp_all [getc, good, setFail] <;> rw [← h]

theorem get_some {s t : In} {c : Char} (h : s.getc = (some c, t)) : s.fail = t.fail ∧ s.rest = c :: t.rest := by
  obtain ⟨r, e, f⟩ := s
  cases e <;> cases f <;> cases r <;> simp_all [getc, good, setFail]
  simp [← h]

theorem delimLoop_sound {str : List Char} {s : In} (h1 : (delimLoop str s).1 = true)
    (h2 : (delimLoop str s).2.fail = false) : s.fail = false ∧ s.rest = str ++ (delimLoop str s).2.rest := by
  induction str generalizing s with
  | nil => exact ⟨h2, rfl⟩
  | cons d ds ih =>
    rw [delimLoop] at h1 h2 ⊢
    cases hg : s.getc with
    | mk o t =>
      rw [hg] at h1 h2
      cases o with
      | none =>
        simp only at h1 h2 ⊢
        rw [delimLoop_fail (get_none hg)] at h2
        cases h2
      | some c =>
        simp only at h1 h2 ⊢
        obtain ⟨e1, e2⟩ := get_some hg
        by_cases hc : c = d
        · simp only [hc, ne_eq, not_true_eq_false, if_false] at h1 h2 ⊢
          obtain ⟨i1, i2⟩ := ih h1 h2
          exact ⟨e1.trans i1, by rw [e2, hc, List.cons_append, ← i2]⟩
        · simp [hc] at h1

theorem delimStr_sound {str : List Char} {s : In} (h : (delimStr str s).fail = false) :
    s.fail = false ∧ s.rest = str ++ (delimStr str s).rest := by
  rw [delimStr] at h ⊢
  cases h1 : (delimLoop str s).1 with
  | false => simp [h1, setFail] at h
  | true =>
    simp only [h1, Bool.true_eq_false, if_false] at h ⊢
    exact delimLoop_sound h1 h

/-! blanks -/

theorem ignoreLoop_ok (bl : List Char) (hb : ∀ c ∈ bl, Blank c) (c : Char) (hc : ¬ Blank c) (k : List Char) (fuel : Nat)
    (hf : bl.length < fuel) : ignoreLoop fuel ⟨bl ++ c :: k, false, false⟩ = ⟨c :: k, false, false⟩ := by
  induction bl generalizing fuel with
  | nil =>
    cases fuel with
    | zero => simp at hf
    | succ fuel =>
      rw [ignoreLoop, if_pos (good_ok _)]
      have hc' : ¬(c = ' ' ∨ c = '\t' ∨ c = '\n') := hc
      simp only [List.nil_append, peek]
      rw [if_pos hc']
  | cons b bl ih =>
    cases fuel with
    | zero => simp at hf
    | succ fuel =>
      rw [ignoreLoop, if_pos (good_ok _)]
      have hc' : b = ' ' ∨ b = '\t' ∨ b = '\n' := hb b (by simp)
      simp only [List.cons_append, peek]
      rw [if_neg (not_not.2 hc')]
      show ignoreLoop fuel ⟨bl ++ c :: k, false, false⟩ = _
      exact ih (fun c h => hb c (by simp [h])) fuel (by simpa using hf)

theorem ignoreSpaces_ok (bl : List Char) (hb : ∀ c ∈ bl, Blank c) (c : Char) (hc : ¬ Blank c) (k : List Char) :
    ignoreSpaces ⟨bl ++ c :: k, false, false⟩ = ⟨c :: k, false, false⟩ :=
  ignoreLoop_ok bl hb c hc k _ (by simp)

theorem ignoreLoop_sound (fuel : Nat) (s : In) :
    (ignoreLoop fuel s).fail = s.fail ∧ ∃ bl, (∀ c ∈ bl, Blank c) ∧ s.rest = bl ++ (ignoreLoop fuel s).rest := by
  induction fuel generalizing s with
  | zero => exact ⟨rfl, [], by simp, rfl⟩
  | succ fuel ih =>
    obtain ⟨r, e, f⟩ := s
    rw [ignoreLoop]
    by_cases hg : good ⟨r, e, f⟩ = true
    · rw [if_pos hg]
      cases r with
      | nil => exact ⟨rfl, [], by simp, rfl⟩
      | cons c r =>
        simp only [peek]
        by_cases hc : Blank c
        · have hc' : c = ' ' ∨ c = '\t' ∨ c = '\n' := hc
          rw [if_neg (not_not.2 hc')]
          have hget : (getc ⟨c :: r, e, f⟩).2 = ⟨r, e, f⟩ := by simp [getc, hg]
          rw [hget]
          obtain ⟨i1, bl, i2, i3⟩ := ih ⟨r, e, f⟩
          refine ⟨i1, c :: bl, ?_, ?_⟩
          · intro x hx
            rcases List.mem_cons.1 hx with rfl | hx
            · exact hc
            · exact i2 x hx
          · rw [List.cons_append, ← i3]
        · have hc' : ¬(c = ' ' ∨ c = '\t' ∨ c = '\n') := hc
          rw [if_pos hc']
          exact ⟨rfl, [], by simp, rfl⟩
    · rw [if_neg hg]
      exact ⟨rfl, [], by simp, rfl⟩

theorem ignoreSpaces_sound (s : In) :
    (ignoreSpaces s).fail = s.fail ∧ ∃ bl, (∀ c ∈ bl, Blank c) ∧ s.rest = bl ++ (ignoreSpaces s).rest :=
  ignoreLoop_sound _ s

/-! numbers -/

theorem digit_sign {c : Char} (h : IsDigit 10 c) : c ≠ '+' ∧ c ≠ '-' := by
  constructor <;> rintro rfl <;> revert h <;> decide

theorem takeSign_none {c : Char} (h1 : c ≠ '+') (h2 : c ≠ '-') (l : List Char) : takeSign (c :: l) = (none, c :: l) := by
  unfold takeSign
  split
  · rename_i h; simp at h; exact absurd h.1 h1
  · rename_i h; simp at h; exact absurd h.1 h2
  · rfl

theorem takeWhile_digits {ds : List Char} (h : ∀ c ∈ ds, IsDigit 10 c) {c : Char} (hc : ¬ IsDigit 10 c) (k : List Char) :
    (ds ++ c :: k).takeWhile isDigit = ds ∧ (ds ++ c :: k).dropWhile isDigit = c :: k := by
  have h' : ∀ c ∈ ds, isDigit c = true := fun c hc => (isDigit_iff c).2 (h c hc)
  constructor
  · rw [List.takeWhile_append_of_pos h', List.takeWhile_cons_of_neg (by simp [isDigit_false hc]), List.append_nil]
  · rw [List.dropWhile_append_of_pos h', List.dropWhile_cons_of_neg (by simp [isDigit_false hc])]

/-- a sign as written -/
def signText : Option Char → List Char
  | none => []
  | some c => [c]

theorem scan_ok {o : Option Char} (ho : o = none ∨ o = some '+' ∨ o = some '-') {ds : List Char} (hn : ds ≠ [])
    (h : ∀ c ∈ ds, IsDigit 10 c) {c : Char} (hc : ¬ IsDigit 10 c) (k : List Char) :
    scan ⟨signText o ++ ds ++ c :: k, false, false⟩ = (o, ds, ⟨c :: k, false, false⟩) := by
  have hs : takeSign (signText o ++ ds ++ c :: k) = (o, ds ++ c :: k) := by
    rcases ho with rfl | rfl | rfl
    · obtain ⟨d, ds, rfl⟩ := List.exists_cons_of_ne_nil hn
      have := digit_sign (h d (by simp))
      exact takeSign_none this.1 this.2 _
    · rfl
    · rfl
  obtain ⟨t1, t2⟩ := takeWhile_digits h hc k
  simp only [scan, hs, t1, t2, List.isEmpty_cons]

theorem scan_sound (s : In) :
    s.scan.2.2.fail = s.fail ∧ (s.scan.1 = none ∨ s.scan.1 = some '+' ∨ s.scan.1 = some '-') ∧
    (∀ c ∈ s.scan.2.1, IsDigit 10 c) ∧ s.rest = signText s.scan.1 ++ s.scan.2.1 ++ s.scan.2.2.rest := by
  refine ⟨rfl, ?_, ?_, ?_⟩
  · simp only [scan]; unfold takeSign; split <;> simp
  · intro c hc
    exact (isDigit_iff c).1 (mem_takeWhile hc)
  · simp only [scan]
    rw [List.append_assoc, List.takeWhile_append_dropWhile]
    unfold takeSign; split <;> simp_all [signText]

/-- what a reader of a number does: it accepts every text for the number that is followed by something else than a digit,
and nothing else -/
structure Reads {α : Type} (T : α → List Char → Prop) (rd : In → α × In) : Prop where
  ok : ∀ v t c k, T v t → ¬ IsDigit 10 c → rd ⟨t ++ c :: k, false, false⟩ = (v, ⟨c :: k, false, false⟩)
  sound : ∀ s, (rd s).2.fail = false → s.fail = false ∧ ∃ t, T (rd s).1 t ∧ s.rest = t ++ (rd s).2.rest

theorem reads_unsigned (w : Nat) : Reads (fun v => Field.Text (.unsigned w v)) (readU w) where
  ok v t c k := by
    rintro ⟨sign, ds, rfl, hn, hd, hlt, hv⟩ hc
    obtain ⟨o, ho, rfl, hv'⟩ : ∃ o : Option Char, (o = none ∨ o = some '+' ∨ o = some '-') ∧ sign = signText o ∧
        v = if o = some '-' then -BitVec.ofNat w (numeral 10 ds) else BitVec.ofNat w (numeral 10 ds) := by
      rcases hv with ⟨rfl | rfl, rfl⟩ | ⟨rfl, rfl⟩
      · exact ⟨none, by simp, rfl, by simp⟩
      · exact ⟨some '+', by simp, rfl, by simp⟩
      · exact ⟨some '-', by simp, rfl, by simp⟩
    rw [readU, if_pos (good_ok _), scan_ok ho hn hd hc]
    simp only [hn, if_false, value_eq hd, not_le.2 hlt]
    rw [hv']
  sound s h := by
    rw [readU] at h ⊢
    by_cases hg : s.good = true
    · rw [if_pos hg] at h ⊢
      obtain ⟨h1, h2, h3, h4⟩ := scan_sound s
      simp only at h ⊢
      by_cases hn : s.scan.2.1 = []
      · simp [hn, setFail] at h
      · simp only [if_neg hn] at h ⊢
        rw [value_eq h3] at h ⊢
        by_cases hlt : 2 ^ w ≤ numeral 10 s.scan.2.1
        · simp [hlt, setFail] at h
        · simp only [if_neg hlt] at h ⊢
          refine ⟨h1.symm.trans h, signText s.scan.1 ++ s.scan.2.1, ⟨_, _, rfl, hn, h3, by omega, ?_⟩, h4⟩
          rcases h2 with h2 | h2 | h2 <;> simp [h2, signText]
    · simp [if_neg hg, setFail] at h

theorem reads_int : Reads (fun v => Field.Text (.int v)) readInt where
  ok v t c k := by
    rintro ⟨sign, ds, rfl, hn, hd, h1, h2, hv⟩ hc
    obtain ⟨o, ho, rfl, hv'⟩ : ∃ o : Option Char, (o = none ∨ o = some '+' ∨ o = some '-') ∧ sign = signText o ∧
        v = if o = some '-' then -(numeral 10 ds : Int) else numeral 10 ds := by
      rcases hv with ⟨rfl | rfl, rfl⟩ | ⟨rfl, rfl⟩
      · exact ⟨none, by simp, rfl, by simp⟩
      · exact ⟨some '+', by simp, rfl, by simp⟩
      · exact ⟨some '-', by simp, rfl, by simp⟩
    rw [readInt, if_pos (good_ok _), scan_ok ho hn hd hc]
    simp only [value_eq hd, hn, if_false, ← hv', not_lt.2 h1, not_le.2 h2]
  sound s h := by
    rw [readInt] at h ⊢
    by_cases hg : s.good = true
    · rw [if_pos hg] at h ⊢
      obtain ⟨h1, h2, h3, h4⟩ := scan_sound s
      simp only at h ⊢
      by_cases hn : s.scan.2.1 = []
      · simp [hn, setFail] at h
      · simp only [if_neg hn] at h ⊢
        rw [value_eq h3] at h ⊢
        generalize hv : (if s.scan.1 = some '-' then -(numeral 10 s.scan.2.1 : Int) else numeral 10 s.scan.2.1) = v at h ⊢
        by_cases c1 : v < -2 ^ 31
        · rw [if_pos c1] at h; cases h
        · simp only [if_neg c1] at h ⊢
          by_cases c2 : 2 ^ 31 ≤ v
          · rw [if_pos c2] at h; cases h
          · simp only [if_neg c2] at h ⊢
            refine ⟨h1.symm.trans h, signText s.scan.1 ++ s.scan.2.1, ⟨_, _, rfl, hn, h3, by omega, by omega, ?_⟩, h4⟩
            rcases h2 with h2 | h2 | h2 <;> simp [h2, signText] at hv ⊢ <;> exact hv.symm
    · simp [if_neg hg, setFail] at h

theorem white_iff (c : Char) : U128Text.isSpace c = true ↔ White c := by
  simp [U128Text.isSpace, White, or_assoc]

/-- `read` in terms of the text: white space, digits, and what follows -/
theorem u128_read_sound {input : List Char} {v : BitVec 128} {r : List Char} (h : U128Text.read .dec input = some (v, r)) :
    ∃ t, Field.Text (.uint128 v) t ∧ input = t ++ r := by
  set white := input.takeWhile U128Text.isSpace with hw
  set body := input.dropWhile U128Text.isSpace with hb
  have hsplit : input = white ++ body := (List.takeWhile_append_dropWhile).symm
  have hwhite : ∀ c ∈ white, White c := fun c hc => (white_iff c).1 (mem_takeWhile hc)
  rw [hsplit, U128Text.read_skip _ _ _ fun c hc => (white_iff c).2 (hwhite c hc)] at h
  set ds := body.takeWhile isDigit with hds
  set k := body.dropWhile isDigit with hk
  have hbody : body = ds ++ k := (List.takeWhile_append_dropWhile).symm
  have hd : ∀ c ∈ ds, IsDigit 10 c := fun c hc => (isDigit_iff c).1 (mem_takeWhile hc)
  have hend : U128Text.Terminates .dec k := by
    refine ⟨fun c hc hdig => ?_, by simp⟩
    cases hkk : k with
    | nil => simp [hkk] at hc
    | cons x k' =>
      have := dropWhile_head (hk.symm.trans hkk)
      rw [hkk, List.head?_cons, Option.mem_some_iff] at hc
      rw [hc, (isDigit_iff c).2 hdig] at this
      cases this
  by_cases hn : ds = []
  · rw [hbody, hn, List.nil_append] at h
    cases hkk : k with
    | nil => rw [hkk] at h; cases h
    | cons c k' =>
      rw [hkk] at h hend
      have hc : ¬ IsDigit 10 c := hend.1 c (by simp)
      have hc' : U128Text.isDecDigit c = false := isDigit_false hc
      have hsp : U128Text.isSpace c = false := by
        exact dropWhile_head (hb.symm.trans (show body = c :: k' by rw [hbody, hkk, hn]; rfl))
      unfold U128Text.read at h
      rw [List.dropWhile_cons_of_neg (by simp [hsp])] at h
      simp [hc'] at h
  · rw [hbody, U128Text.read_numeral .dec ds k hn hd hend] at h
    by_cases hlt : numeral 10 ds < 2 ^ 128
    · rw [if_pos (by exact hlt)] at h
      simp only [Option.some.injEq, Prod.mk.injEq] at h
      obtain ⟨rfl, rfl⟩ := h
      refine ⟨white ++ ds, ⟨white, ds, rfl, hwhite, hn, hd, ?_⟩, by rw [hsplit, hbody, List.append_assoc]⟩
      show numeral 10 ds = _
      rw [BitVec.toNat_ofNat, Nat.mod_eq_of_lt]
      · rfl
      · exact hlt
    · rw [if_neg (by exact hlt)] at h; cases h

theorem u128_read_ok {v : BitVec 128} {t : List Char} (ht : Field.Text (.uint128 v) t) {c : Char} (hc : ¬ IsDigit 10 c)
    (k : List Char) : U128Text.read .dec (t ++ c :: k) = some (v, c :: k) := by
  obtain ⟨white, ds, rfl, hw, hn, hd, hv⟩ := ht
  rw [List.append_assoc, U128Text.read_skip _ _ _ fun c hc => (white_iff c).2 (hw c hc),
    U128Text.read_numeral .dec ds _ hn hd ⟨fun x hx => by simp at hx; rw [← hx]; exact hc, by simp⟩]
  have : numeral (U128Text.radix .dec) ds = v.toNat := hv
  rw [this, if_pos v.isLt, BitVec.ofNat_toNat, BitVec.setWidth_eq]

theorem reads_uint128 : Reads (fun v => Field.Text (.uint128 v)) readU128 where
  ok v t c k ht hc := by
    rw [readU128, if_pos (good_ok _)]
    simp only [u128_read_ok ht hc]
    rfl
  sound s h := by
    rw [readU128] at h ⊢
    by_cases hg : s.good = true
    · rw [if_pos hg] at h ⊢
      cases hr : U128Text.read .dec s.rest with
      | none => simp [hr, setFail] at h
      | some x =>
        obtain ⟨v, r⟩ := x
        simp only [hr] at h ⊢
        exact ⟨h, u128_read_sound hr⟩
    · simp [if_neg hg, setFail] at h

end Trng.Stream
