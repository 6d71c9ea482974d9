import Verif.Model.Dieharder
import Verif.Spec.Dieharder
import Verif.Proofs.Stream
import Verif.Proofs.Modulo
import Verif.Props.MRG
import Verif.Props.MT

namespace Trng.Dieharder
open Spec StreamSpec DieharderSpec Trng.Stream Trng.Stream.In IntMath

theorem readU_eof {w : Nat} {s : In} (hg : s.good = true) (h : (readU w s).2.eof = true) : (readU w s).2.rest = [] := by
  have k : s.scan.2.2.eof = true → s.scan.2.2.rest = [] := fun h => List.isEmpty_iff.1 h
  rw [readU, if_pos hg] at h ⊢
  simp only at h ⊢
  split_ifs at h ⊢
  all_goals exact k h

theorem scan_end {o : Option Char} (ho : o = none ∨ o = some '+' ∨ o = some '-') {ds : List Char} (hn : ds ≠ [])
    (h : ∀ c ∈ ds, IsDigit 10 c) : scan ⟨signText o ++ ds, false, false⟩ = (o, ds, ⟨[], true, false⟩) := by
  have hs : takeSign (signText o ++ ds) = (o, ds) := by
    rcases ho with rfl | rfl | rfl
    · obtain ⟨d, ds, rfl⟩ := List.exists_cons_of_ne_nil hn
      have := digit_sign (h d (by simp))
      exact takeSign_none this.1 this.2 _
    · rfl
    · rfl
  have h' : ∀ c ∈ ds, isDigit c = true := fun c hc => (isDigit_iff c).2 (h c hc)
  have t1 : ds.takeWhile isDigit = ds := by simpa using List.takeWhile_append_of_pos (l₂ := []) h'
  have t2 : ds.dropWhile isDigit = [] := by simpa using List.dropWhile_append_of_pos (l₂ := []) h'
  simp only [scan, hs, t1, t2, List.isEmpty_nil]

theorem readU_end {w : Nat} {v : BitVec w} {t : List Char} (h : Field.Text (.unsigned w v) t) :
    readU w ⟨t, false, false⟩ = (v, ⟨[], true, false⟩) := by
  obtain ⟨sign, ds, rfl, hn, hd, hlt, hv⟩ := h
  obtain ⟨o, ho, rfl, hv'⟩ : ∃ o : Option Char, (o = none ∨ o = some '+' ∨ o = some '-') ∧ sign = signText o ∧
      v = if o = some '-' then -BitVec.ofNat w (numeral 10 ds) else BitVec.ofNat w (numeral 10 ds) := by
    rcases hv with ⟨rfl | rfl, rfl⟩ | ⟨rfl, rfl⟩
    · exact ⟨none, by simp, rfl, by simp⟩
    · exact ⟨some '+', by simp, rfl, by simp⟩
    · exact ⟨some '-', by simp, rfl, by simp⟩
  rw [readU, if_pos (good_ok _), scan_end ho hn hd]
  simp only [hn, if_false, value_eq hd, not_le.2 hlt]
  rw [hv']

theorem text_head {w : Nat} {v : BitVec w} {t : List Char} (h : Field.Text (.unsigned w v) t) :
    t.dropWhile U128Text.isSpace = t := by
  obtain ⟨sign, ds, rfl, hn, hd, -, hv⟩ := h
  have hs : sign = [] ∨ sign = ['+'] ∨ sign = ['-'] := by rcases hv with ⟨a | a, -⟩ | ⟨a, -⟩ <;> simp [a]
  rcases hs with rfl | rfl | rfl
  · obtain ⟨d, ds, rfl⟩ := List.exists_cons_of_ne_nil hn
    have : U128Text.isSpace d = false := U128Text.not_isSpace_of_digit ((hd d (by simp)).mono (by decide))
    rw [List.nil_append, List.dropWhile_cons_of_neg (by simp [this])]
  · rfl
  · rfl

theorem dropWhile_white {a t : List Char} (h : ∀ c ∈ a, White c) : (a ++ t).dropWhile U128Text.isSpace = t.dropWhile U128Text.isSpace :=
  List.dropWhile_append_of_pos fun c hc => (white_iff c).2 (h c hc)

theorem tryParse_iff {t : List Char} {v : BitVec 64} : tryParse t = some v ↔ Argument t v := by
  constructor
  · intro h
    unfold tryParse at h
    simp only [Bool.and_eq_true, Bool.not_eq_true', Option.ite_none_right_eq_some, Option.some.injEq] at h
    obtain ⟨⟨h1, h2⟩, h3⟩ := h
    obtain ⟨-, u, hu, hr⟩ := (reads_unsigned 64).sound _ h2
    have e := readU_eof (good_ok _) h1
    rw [h3] at hu
    refine ⟨t.takeWhile U128Text.isSpace, u, ?_, fun c hc => (white_iff c).1 (mem_takeWhile hc), hu⟩
    rw [e, List.append_nil] at hr
    rw [← hr, List.takeWhile_append_dropWhile]
  · rintro ⟨a, u, rfl, ha, hu⟩
    unfold tryParse
    rw [dropWhile_white ha, text_head hu, readU_end hu]
    rfl

theorem argument_unique {t : List Char} {v w : BitVec 64} (h : Argument t v) (h' : Argument t w) : v = w :=
  Option.some.inj ((tryParse_iff.2 h).symm.trans (tryParse_iff.2 h'))

theorem lines_spec (R : Prng) (x : Nat → Nat) : ∀ (n : Nat) (r : R.σ) (i : Nat), (∀ k, nth R.call r k = some (x (i + k) : ℤ)) →
    ∃ ls : List (List Char), ls.length = n ∧ (∀ k, ∀ h : k < ls.length, Decimal (x (i + k)) ls[k]) ∧ lines R n r = some (unlines ls)
  | 0, _, _, _ => ⟨[], rfl, by simp, rfl⟩
  | n + 1, r, i, h => by
    obtain ⟨ls, h1, h2, h3⟩ := lines_spec R x n (R.call r).2 (i + 1) fun k => by
      rw [show i + 1 + k = i + (k + 1) by ring]; exact h (k + 1)
    refine ⟨decimal (x i) :: ls, by simp [h1], ?_, ?_⟩
    · intro k hk
      cases k with
      | zero => exact decimal_spec _
      | succ k =>
        have := h2 k (by simpa using hk)
        rw [show i + 1 + k = i + (k + 1) by ring] at this
        simpa using this
    · have h0 : (R.call r).1 = some (x i : ℤ) := h 0
      obtain ⟨a, ha⟩ : ∃ a, R.call r = (some (x i : ℤ), a) := ⟨(R.call r).2, by rw [← h0]⟩
      rw [ha] at h3
      simp only [lines, ha, h3, Option.map_some]
      have : decimalInt ((x i : ℤ) - 0) = decimal (x i) := by
        rw [sub_zero, decimalInt, if_neg (by omega), Int.natAbs_natCast]
      rw [this]
      simp [unlines]

theorem generate_spec (R : Prng) (x : Nat → Nat) (h : ∀ k, nth R.call R.init k = some (x k : ℤ)) (n s : BitVec 64) :
    ∃ t, generate R n s = some t ∧ FileText R.name s.toNat n.toNat (log2Ceil R.max) x t := by
  obtain ⟨ls, h1, h2, h3⟩ := lines_spec R x n.toNat R.init 0 (by simpa using h)
  refine ⟨_, by rw [generate, h3]; rfl, outU s, outU n, decimal (log2Ceil R.max), ls, decimal_spec _, decimal_spec _, decimal_spec _, h1,
    by simpa using h2, ?_⟩
  have e : Dieharder.rule = DieharderSpec.rule := by decide
  simp [header, unlines, e]

theorem clog_max {m : Nat} {k : Nat} (h : m = 2 ^ k - 1) (hk : 2 ≤ k) : log2Ceil m = k := by
  have h4 : 2 ^ 2 ≤ 2 ^ k := Nat.pow_le_pow_right (by norm_num) hk
  have e : 2 ^ k = 2 * 2 ^ (k - 1) := by rw [← pow_succ', Nat.sub_add_cancel (by omega)]
  have e' : 2 ^ (k - 1) = 2 * 2 ^ (k - 1 - 1) := by rw [← pow_succ', Nat.sub_add_cancel (by omega)]
  rw [log2Ceil_eq (by omega)]
  refine le_antisymm ((Nat.clog_le_iff_le_pow (by omega)).2 (by omega)) ?_
  by_contra hc
  have := (Nat.clog_le_iff_le_pow (b := 2) (by omega)).1 (show Nat.clog 2 m ≤ k - 1 by omega)
  have : 0 < 2 ^ (k - 1 - 1) := Nat.pow_pos (by norm_num)
  omega

/-- What the file needs of an engine. -/
structure Fits (R : Prng) (x : Nat → Nat) (b : Nat) : Prop where
  vals : ∀ k, nth R.call R.init k = some (x k : ℤ)
  le : ∀ k, x k ≤ R.max
  lt : R.max < 2 ^ b
  ge : 2 ^ (b - 1) ≤ R.max
  bits : log2Ceil R.max = b

theorem fits_bits {σ : Type} (c : σ → BitVec 64 × σ) (name : List Char) (i : σ) :
    Fits ⟨name, σ, i, ofBits c, 2 ^ 64 - 1⟩ (fun k => (nth c i k).toNat) 64 where
  vals k := by
    have h : ∀ (k : Nat) (r : σ), afterCalls (ofBits c) k r = afterCalls c k r := by
      intro k
      induction k with
      | zero => intro r; rfl
      | succ k ih => intro r; exact ih _
    show (ofBits c (afterCalls (ofBits c) k i)).1 = _
    rw [h]; rfl
  le k := by have := (nth c i k).isLt; show _ ≤ 2 ^ 64 - 1; omega
  lt := by show 2 ^ 64 - 1 < 2 ^ 64; norm_num
  ge := by show 2 ^ (64 - 1) ≤ 2 ^ 64 - 1; norm_num
  bits := clog_max rfl (by norm_num)

theorem modulus_max (K : Kind) : K.modulus - 1 < 2 ^ 31 ∧ 2 ^ 30 ≤ K.modulus - 1 := by cases K <;> decide

theorem log2Ceil_modulus (K : Kind) : log2Ceil (K.modulus - 1) = 31 := by
  obtain ⟨h1, h2⟩ := modulus_max K
  rw [log2Ceil_eq (by omega)]
  refine le_antisymm ((Nat.clog_le_iff_le_pow (by omega)).2 (by omega)) ?_
  by_contra hc
  have := (Nat.clog_le_iff_le_pow (b := 2) (by omega)).1 (show Nat.clog 2 (K.modulus - 1) ≤ 30 by omega)
  have : K.modulus - 1 ≠ 2 ^ 30 := by cases K <;> decide
  omega

theorem fits_mrg (K : Kind) : Fits (mrg K) (fun k => (nth (MRG.call K.modulus) (MRG.init K) k).toNat) 31 where
  vals k := by
    have h : ∀ (k : Nat) (r : MRG K.order), afterCalls (mrg K).call k r = afterCalls (MRG.call K.modulus) k r := by
      intro k
      induction k with
      | zero => intro r; rfl
      | succ k ih => intro r; exact ih _
    show ((mrg K).call (afterCalls (mrg K).call k (MRG.init K))).1 = _
    rw [h]
    exact congrArg some (Int.toNat_of_nonneg (C26_mrg_range K _ (MRG.init_inRange K) k).1).symm
  le k := by have := (C26_mrg_range K _ (MRG.init_inRange K) k).2.1; show _ ≤ K.modulus - 1; omega
  lt := (modulus_max K).1
  ge := (modulus_max K).2
  bits := log2Ceil_modulus K

theorem fits_yarn (K : Kind) : ∃ x, Fits (yarn K) x 31 := by
  choose y hy h0 h1 using C30_yarn_range K _ (MRG.init_inRange K)
  refine ⟨fun k => (y k).toNat, fun k => ?_, fun k => ?_, (modulus_max K).1, (modulus_max K).2, log2Ceil_modulus K⟩
  · refine (hy k).trans (congrArg some (Int.toNat_of_nonneg (h0 k)).symm)
  · have := h1 k; have := h0 k; show _ ≤ K.modulus - 1; omega

theorem fits_mt {w : Nat} {P : MT.Params w} (hw : 2 ≤ w) (name : List Char) (h : ∀ k, ∃ v, nth MT.call (MT.default (P := P)) k = some v) :
    ∃ x, Fits (mt P name) x w := by
  choose v hv using h
  refine ⟨fun k => (v k).toNat, fun k => ?_, fun k => ?_, ?_, ?_, clog_max rfl hw⟩
  · have h : ∀ (k : Nat) (r : MT P), afterCalls (mt P name).call k r = afterCalls MT.call k r := by
      intro k
      induction k with
      | zero => intro r; rfl
      | succ k ih => intro r; exact ih _
    show ((mt P name).call (afterCalls (mt P name).call k MT.default)).1 = _
    rw [h]
    exact congrArg (Option.map _) (hv k)
  · have := (v k).isLt; show _ ≤ 2 ^ w - 1; omega
  · have := Nat.pow_pos (n := w) (show 0 < 2 by norm_num); show 2 ^ w - 1 < 2 ^ w; omega
  · have e : 2 ^ w = 2 * 2 ^ (w - 1) := by rw [← pow_succ', Nat.sub_add_cancel (by omega)]
    have := Nat.pow_pos (n := w - 1) (show 0 < 2 by norm_num); show 2 ^ (w - 1) ≤ 2 ^ w - 1; omega

theorem fits {R : Prng} (h : R ∈ prngs) : ∃ x b, Fits R x b := by
  simp only [prngs, List.mem_cons, List.not_mem_nil, or_false] at h
  rcases h with rfl | rfl | rfl | rfl | rfl | rfl | rfl | rfl | rfl | rfl | rfl | rfl | rfl | rfl | rfl | rfl | rfl | rfl
  · exact ⟨_, _, fits_bits _ _ _⟩
  · exact ⟨_, _, fits_bits _ _ _⟩
  · exact ⟨_, _, fits_bits _ _ _⟩
  · exact ⟨_, _, fits_mrg _⟩
  · exact ⟨_, _, fits_mrg _⟩
  · exact ⟨_, _, fits_mrg _⟩
  · exact ⟨_, _, fits_mrg _⟩
  · exact ⟨_, _, fits_mrg _⟩
  · exact ⟨_, _, fits_mrg _⟩
  · exact (fits_yarn _).imp fun _ h => ⟨_, h⟩
  · exact (fits_yarn _).imp fun _ h => ⟨_, h⟩
  · exact (fits_yarn _).imp fun _ h => ⟨_, h⟩
  · exact (fits_yarn _).imp fun _ h => ⟨_, h⟩
  · exact (fits_yarn _).imp fun _ h => ⟨_, h⟩
  · exact (fits_yarn _).imp fun _ h => ⟨_, h⟩
  · exact (fits_mt (by norm_num) _ fun k => by
      obtain ⟨X, -, -, h⟩ := C36_mt19937_standard {} 5489; exact ⟨_, h k⟩).imp fun _ h => ⟨_, h⟩
  · exact (fits_mt (by norm_num) _ fun k => by
      obtain ⟨X, -, -, h⟩ := C36_mt19937_64_standard {} 5489; exact ⟨_, h k⟩).imp fun _ h => ⟨_, h⟩
  · exact ⟨_, _, fits_bits _ _ _⟩

theorem names_nodup : (prngs.map Prng.name).Nodup := by decide

theorem find {R : Prng} (h : R ∈ prngs) : prngs.find? (fun S => S.name = R.name) = some R := by
  rw [List.find?_eq_some_iff_append]
  refine ⟨by simp, ?_⟩
  obtain ⟨as, bs, e⟩ := List.append_of_mem h
  refine ⟨as, bs, e, fun a ha => ?_⟩
  have n := names_nodup
  rw [e, List.map_append, List.nodup_append] at n
  have := n.2.2 a.name (List.mem_map_of_mem ha) R.name (by simp)
  simpa using this

theorem append_newline {a b r r' : List Char} (ha : '\n' ∉ a) (hb : '\n' ∉ b) (h : a ++ '\n' :: r = b ++ '\n' :: r') : a = b ∧ r = r' := by
  induction a generalizing b with
  | nil =>
    cases b with
    | nil => exact ⟨rfl, by simpa using h⟩
    | cons c b => simp only [List.nil_append, List.cons_append, List.cons.injEq] at h; exact absurd h.1 (by rintro rfl; simp at hb)
  | cons c a ih =>
    cases b with
    | nil => simp only [List.nil_append, List.cons_append, List.cons.injEq] at h; exact absurd h.1 (by rintro rfl; simp at ha)
    | cons d b =>
      simp only [List.cons_append, List.cons.injEq] at h
      obtain ⟨e, e'⟩ := ih (fun hc => ha (List.mem_cons_of_mem _ hc)) (fun hc => hb (List.mem_cons_of_mem _ hc)) h.2
      exact ⟨by rw [h.1, e], e'⟩

theorem unlines_inj : ∀ {ls ls' : List (List Char)}, (∀ l ∈ ls, '\n' ∉ l) → (∀ l ∈ ls', '\n' ∉ l) → unlines ls = unlines ls' → ls = ls'
  | [], [], _, _, _ => rfl
  | [], l :: ls, _, _, h => by simp [unlines] at h
  | l :: ls, [], _, _, h => by simp [unlines] at h
  | l :: ls, l' :: ls', h1, h2, h => by
    simp only [unlines, List.flatMap_cons, List.append_assoc, List.singleton_append] at h
    obtain ⟨e, e'⟩ := append_newline (h1 l (by simp)) (h2 l' (by simp)) h
    rw [e, unlines_inj (fun l hl => h1 l (by simp [hl])) (fun l hl => h2 l (by simp [hl])) e']

theorem decimal_newline {n : Nat} {t : List Char} (h : Decimal n t) : '\n' ∉ t := fun hc => absurd (h.2.1 _ hc) (by decide)

/-- A file determines its values. -/
theorem fileText_unique {name : List Char} (hname : '\n' ∉ name) {s n b s' n' b' : Nat} {x x' : Nat → Nat} {t : List Char}
    (h : FileText name s n b x t) (h' : FileText name s' n' b' x' t) : n = n' ∧ ∀ k < n, x k = x' k := by
  obtain ⟨a1, a2, a3, ls, d1, d2, d3, hl, hd, rfl⟩ := h
  obtain ⟨b1, b2, b3, ls', e1, e2, e3, hl', hd', ht⟩ := h'
  have num : ∀ {ls : List (List Char)} {x : Nat → Nat}, (∀ k, ∀ h : k < ls.length, Decimal (x k) ls[k]) → ∀ l ∈ ls, '\n' ∉ l := by
    intro ls x h l hm
    obtain ⟨k, hk, rfl⟩ := List.getElem_of_mem hm
    exact decimal_newline (h k hk)
  have all : ∀ {c1 c2 c3 : List Char} {ms : List (List Char)}, '\n' ∉ c1 → '\n' ∉ c2 → '\n' ∉ c3 → (∀ l ∈ ms, '\n' ∉ l) →
      ∀ l ∈ [DieharderSpec.rule, "# generator ".toList ++ name ++ "  seed = ".toList ++ c1, DieharderSpec.rule, "type: d".toList,
        "count: ".toList ++ c2, "numbit: ".toList ++ c3] ++ ms, '\n' ∉ l := by
    intro c1 c2 c3 ms h1 h2 h3 h l hm
    simp only [List.cons_append, List.nil_append, List.mem_cons] at hm
    have hr : '\n' ∉ DieharderSpec.rule := by decide
    rcases hm with rfl | rfl | rfl | rfl | rfl | rfl | hm
    · exact hr
    · simp [hname, h1]
    · exact hr
    · decide
    · simp [h2]
    · simp [h3]
    · exact h l hm
  have e := unlines_inj (all (decimal_newline d1) (decimal_newline d2) (decimal_newline d3) (num hd))
    (all (decimal_newline e1) (decimal_newline e2) (decimal_newline e3) (num hd')) ht
  simp only [List.cons_append, List.nil_append, List.cons.injEq] at e
  obtain ⟨-, -, -, -, -, -, rfl⟩ := e
  refine ⟨hl.symm.trans hl', fun k hk => ?_⟩
  rw [← (hd k (hl ▸ hk)).2.2, ← (hd' k (hl ▸ hk)).2.2]

end Trng.Dieharder
