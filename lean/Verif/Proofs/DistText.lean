import Verif.Proofs.DistRound
import Verif.Proofs.StreamEngines

namespace Trng.DistText
open Trng.DistTextSpec Trng.Stream Trng.Stream.In Trng.StreamSpec Trng.Spec

/-- the characters that follow a number -/
def Stop (c : Char) : Prop := c = ' ' ∨ c = ')'

theorem Stop.not_digit {c : Char} (h : Stop c) : ¬ IsDigit 10 c := by
  rcases h with rfl | rfl <;> decide

/-- what a reader of a number does -/
structure ReadsB {α : Type} (T : α → List Char → Prop) (rd : In → α × In) : Prop where
  ok : ∀ v t c k, T v t → Stop c → rd ⟨t ++ c :: k, false, false⟩ = (v, ⟨c :: k, false, false⟩)
  sound : ∀ s, (rd s).2.fail = false → s.fail = false ∧ ∃ t, T (rd s).1 t ∧ s.rest = t ++ (rd s).2.rest

theorem ReadsB.of_reads {α : Type} {T : α → List Char → Prop} {rd : In → α × In} (h : Reads T rd) : ReadsB T rd :=
  ⟨fun v t c k ht hc => h.ok v t c k ht hc.not_digit, h.sound⟩

/-! ### Floating-point numbers: reading -/

theorem takeSign_sound (l : List Char) :
    ((takeSign l).1 = none ∨ (takeSign l).1 = some '+' ∨ (takeSign l).1 = some '-') ∧
    l = signText (takeSign l).1 ++ (takeSign l).2 := by
  unfold takeSign; split <;> simp [signText]

theorem takeSign_ok {o : Option Char} (ho : o = none ∨ o = some '+' ∨ o = some '-') {c : Char} (h1 : c ≠ '+') (h2 : c ≠ '-')
    (l : List Char) : takeSign (signText o ++ c :: l) = (o, c :: l) := by
  rcases ho with rfl | rfl | rfl
  · exact takeSign_none h1 h2 l
  · rfl
  · rfl

theorem digits_take (l : List Char) : ∀ c ∈ l.takeWhile isDigit, IsDigit 10 c :=
  fun c hc => (isDigit_iff c).1 (mem_takeWhile hc)

theorem takeFraction_sound (l : List Char) : ∃ fr, l = fr ++ (takeFraction l).2 ∧
    (fr = [] ∧ (takeFraction l).1 = [] ∨ fr = '.' :: (takeFraction l).1) ∧ ∀ c ∈ (takeFraction l).1, IsDigit 10 c := by
  unfold takeFraction
  split
  · rename_i r
    exact ⟨'.' :: r.takeWhile isDigit, by simp, Or.inr rfl, digits_take r⟩
  · exact ⟨[], by simp, Or.inl ⟨rfl, rfl⟩, by simp⟩

theorem takeFraction_none {c : Char} (h : c ≠ '.') (l : List Char) : takeFraction (c :: l) = ([], c :: l) := by
  unfold takeFraction
  split
  · rename_i h'; simp at h'; exact absurd h'.1 h
  · rfl

/-- the text of an exponent -/
def exText (e : Char) : Option (Option Char × List Char) → List Char
  | none => []
  | some (s, ds) => e :: (signText s ++ ds)

/-- a sign and digits -/
def ExOk : Option (Option Char × List Char) → Prop
  | none => True
  | some (s, ds) => (s = none ∨ s = some '+' ∨ s = some '-') ∧ ∀ c ∈ ds, IsDigit 10 c

theorem takeExponent_sound (l : List Char) : ∃ e, (e = 'e' ∨ e = 'E') ∧
    l = exText e (takeExponent l).1 ++ (takeExponent l).2 ∧ ExOk (takeExponent l).1 := by
  cases l with
  | nil => exact ⟨'e', Or.inl rfl, rfl, trivial⟩
  | cons c r =>
    by_cases h : c = 'e' ∨ c = 'E'
    · refine ⟨c, h, ?_, ?_⟩
      · simp only [takeExponent, if_pos h, exText, List.cons_append, List.append_assoc, List.takeWhile_append_dropWhile]
        rw [← (takeSign_sound r).2]
      · simp only [takeExponent, if_pos h, ExOk]
        exact ⟨(takeSign_sound r).1, digits_take _⟩
    · refine ⟨'e', Or.inl rfl, ?_, ?_⟩ <;> simp [takeExponent, if_neg h, exText, ExOk]

theorem takeExponent_ok {e : Char} (he : e = 'e' ∨ e = 'E') {x : Option (Option Char × List Char)} (hx : ExOk x)
    (hn : ∀ s, x ≠ some (s, [])) {c : Char} (hc : Stop c) (k : List Char) :
    takeExponent (exText e x ++ c :: k) = (x, c :: k) := by
  have hce : ¬(c = 'e' ∨ c = 'E') := by rcases hc with rfl | rfl <;> decide
  match x, hx, hn with
  | none, _, _ => simp [exText, takeExponent, if_neg hce]
  | some (s, []), _, hn => exact absurd rfl (hn s)
  | some (s, d :: ds), hx, _ =>
    obtain ⟨h1, h2⟩ := hx
    have hd := digit_sign (h2 d (by simp))
    simp only [exText, takeExponent, List.cons_append, List.append_assoc, if_pos he]
    rw [takeSign_ok h1 hd.1 hd.2]
    have := takeWhile_digits h2 hc.not_digit k
    simp only [List.cons_append] at this
    simp only [this]

theorem scanF_sound (l : List Char) : ∃ fr e, (e = 'e' ∨ e = 'E') ∧
    l = signText (scanF l).sign ++ (scanF l).ip ++ fr ++ exText e (scanF l).ex ++ (scanF l).rest ∧
    ((scanF l).sign = none ∨ (scanF l).sign = some '+' ∨ (scanF l).sign = some '-') ∧
    (∀ c ∈ (scanF l).ip, IsDigit 10 c) ∧ (∀ c ∈ (scanF l).fp, IsDigit 10 c) ∧
    (fr = [] ∧ (scanF l).fp = [] ∨ fr = '.' :: (scanF l).fp) ∧ ExOk (scanF l).ex := by
  obtain ⟨s1, s2⟩ := takeSign_sound l
  obtain ⟨fr, f1, f2, f3⟩ := takeFraction_sound ((takeSign l).2.dropWhile isDigit)
  obtain ⟨e, e1, e2, e3⟩ := takeExponent_sound (takeFraction ((takeSign l).2.dropWhile isDigit)).2
  refine ⟨fr, e, e1, ?_, s1, digits_take _, f3, f2, ?_⟩
  · simp only [scanF]
    split_ifs
    · simp only [exText, List.append_nil, List.append_assoc]
      rw [← f1, List.takeWhile_append_dropWhile, ← s2]
    · simp only [List.append_assoc]
      rw [← e2, ← f1, List.takeWhile_append_dropWhile, ← s2]
  · simp only [scanF]
    split_ifs
    · trivial
    · exact e3

theorem digit_ne {c : Char} (h : IsDigit 10 c) : c ≠ '.' ∧ c ≠ '+' ∧ c ≠ '-' ∧ c ≠ 'e' ∧ c ≠ 'E' := by
  refine ⟨?_, ?_, ?_, ?_, ?_⟩ <;> rintro rfl <;> revert h <;> decide

theorem scanF_ok {o : Option Char} (ho : o = none ∨ o = some '+' ∨ o = some '-') {ip fp fr : List Char}
    (hip : ∀ c ∈ ip, IsDigit 10 c) (hfp : ∀ c ∈ fp, IsDigit 10 c) (hne : ¬(ip = [] ∧ fp = []))
    (hfr : fr = [] ∧ fp = [] ∨ fr = '.' :: fp) {e : Char} (he : e = 'e' ∨ e = 'E') {x : Option (Option Char × List Char)}
    (hx : ExOk x) (hn : ∀ s, x ≠ some (s, [])) {c : Char} (hc : Stop c) (k : List Char) :
    scanF (signText o ++ ip ++ fr ++ exText e x ++ c :: k) = ⟨o, ip, fp, x, c :: k⟩ := by
  -- what follows the fraction
  obtain ⟨z, Z, hZ, hz1, hz2⟩ : ∃ z Z, exText e x ++ c :: k = z :: Z ∧ ¬ IsDigit 10 z ∧ z ≠ '.' := by
    cases x with
    | none => exact ⟨c, k, rfl, hc.not_digit, by rcases hc with rfl | rfl <;> decide⟩
    | some x =>
      refine ⟨e, _, rfl, ?_, ?_⟩ <;> rcases he with rfl | rfl <;> decide
  have hfrac : takeFraction (fr ++ z :: Z) = (fp, z :: Z) := by
    rcases hfr with ⟨rfl, rfl⟩ | rfl
    · exact takeFraction_none hz2 Z
    · have := takeWhile_digits hfp hz1 Z
      simp only [takeFraction, List.cons_append, this]
  obtain ⟨y, Y, hY, hy1⟩ : ∃ y Y, fr ++ z :: Z = y :: Y ∧ ¬ IsDigit 10 y := by
    rcases hfr with ⟨rfl, rfl⟩ | rfl
    · exact ⟨z, Z, rfl, hz1⟩
    · exact ⟨'.', _, rfl, by decide⟩
  have htw := takeWhile_digits hip hy1 Y
  have hsign : takeSign (signText o ++ (ip ++ y :: Y)) = (o, ip ++ y :: Y) := by
    cases ip with
    | nil =>
      have hfp' : fp ≠ [] := fun h => hne ⟨rfl, h⟩
      rcases hfr with ⟨_, h⟩ | rfl
      · exact absurd h hfp'
      · simp only [List.cons_append, List.cons.injEq] at hY
        obtain ⟨rfl, _⟩ := hY
        exact takeSign_ok ho (by decide) (by decide) _
    | cons d ds =>
      have := digit_sign (hip d (by simp))
      exact takeSign_ok ho this.1 this.2 _
  have hassoc : signText o ++ ip ++ fr ++ exText e x ++ c :: k = signText o ++ (ip ++ y :: Y) := by
    rw [← hY, ← hZ]; simp
  rw [hassoc]
  simp only [scanF, hsign, htw]
  rw [← hY, hfrac]
  simp only [if_neg hne]
  rw [← hZ, takeExponent_ok he hx hn hc k]

theorem exponent_eq {s : Option Char} {ds : List Char} (hd : ∀ c ∈ ds, IsDigit 10 c) :
    exponent (some (s, ds)) = if s = some '-' then -(numeral 10 ds : ℤ) else numeral 10 ds := by
  simp only [exponent, value_eq hd]

theorem reads_real (F : FloatType) : ReadsB (RealText F) (readF F) where
  ok v t c k := by
    rintro ⟨sign, ip, fraction, fp, ex, x, rfl, hs, hip, hfp, hne, hfr, hex, hlt, rfl⟩ hc
    obtain ⟨o, ho, rfl, ho'⟩ : ∃ o : Option Char, (o = none ∨ o = some '+' ∨ o = some '-') ∧ sign = signText o ∧
        (sign = ['-'] ↔ o = some '-') := by
      rcases hs with rfl | rfl | rfl
      · exact ⟨none, by simp, rfl, by simp⟩
      · exact ⟨some '+', by simp, rfl, by simp⟩
      · exact ⟨some '-', by simp, rfl, by simp⟩
    obtain ⟨e, y, he, hy, hn, rfl, hxy⟩ : ∃ e y, (e = 'e' ∨ e = 'E') ∧ ExOk y ∧ (∀ s, y ≠ some (s, [])) ∧
        ex = exText e y ∧ x = exponent y := by
      rcases hex with ⟨rfl, rfl⟩ | ⟨e, xs, ds, rfl, he, hn, hd, hxs⟩
      · exact ⟨'e', none, Or.inl rfl, trivial, by simp, rfl, rfl⟩
      · have hn' : ∀ u s, (some (u, ds) : Option (Option Char × List Char)) ≠ some (s, []) := by
          intro u s h; simp at h; exact hn h.2
        rcases hxs with ⟨rfl | rfl, rfl⟩ | ⟨rfl, rfl⟩
        · exact ⟨e, some (none, ds), he, ⟨by simp, hd⟩, hn' _, rfl, by rw [exponent_eq hd]; simp⟩
        · exact ⟨e, some (some '+', ds), he, ⟨by simp, hd⟩, hn' _, rfl, by rw [exponent_eq hd]; simp⟩
        · exact ⟨e, some (some '-', ds), he, ⟨by simp, hd⟩, hn' _, rfl, by rw [exponent_eq hd]; simp⟩
    have habs : (Scanned.mk o ip fp y (c :: k)).abs = numeral 10 (ip ++ fp) / 10 ^ fp.length * 10 ^ x := by
      rw [Scanned.abs]
      simp only
      rw [value_eq (by
        intro c hc
        rcases List.mem_append.1 hc with h | h
        · exact hip c h
        · exact hfp c h), hxy]
    rw [readF, if_pos (good_ok _)]
    simp only [scanF_ok ho hip hfp hne hfr he hy hn hc, habs]
    have h1 : ¬((ip = [] ∧ fp = []) ∨ (y.map Prod.snd = some [])) := by
      rintro (h | h)
      · exact hne h
      · cases y with
        | none => simp at h
        | some q =>
          obtain ⟨s, ds⟩ := q
          simp at h
          exact hn s (by rw [h])
    rw [if_neg h1, if_neg (not_le.2 hlt)]
    simp only [List.isEmpty_cons, ho']
  sound s h := by
    rw [readF] at h ⊢
    by_cases hg : s.good = true
    · rw [if_pos hg] at h ⊢
      obtain ⟨fr, e, he, hl, hs, hip, hfp, hfr, hex⟩ := scanF_sound s.rest
      generalize hr : scanF s.rest = r at *
      simp only at h ⊢
      by_cases h1 : (r.ip = [] ∧ r.fp = []) ∨ (r.ex.map Prod.snd = some [])
      · rw [if_pos h1] at h; cases h
      · rw [if_neg h1] at h ⊢
        by_cases h2 : 2 ^ F.emax ≤ F.round r.abs
        · rw [if_pos h2] at h; cases h
        · rw [if_neg h2] at h ⊢
          push Not at h1 h2
          have habs : r.abs = numeral 10 (r.ip ++ r.fp) / 10 ^ r.fp.length * 10 ^ exponent r.ex := by
            rw [Scanned.abs, value_eq (by
              intro c hc
              rcases List.mem_append.1 hc with h | h
              · exact hip c h
              · exact hfp c h)]
          refine ⟨h, signText r.sign ++ r.ip ++ fr ++ exText e r.ex, ⟨signText r.sign, r.ip, fr, r.fp, exText e r.ex,
            exponent r.ex, rfl, ?_, hip, hfp, fun h => h1.1 h.1 h.2, hfr, ?_, by rw [← habs]; exact h2, ?_⟩, hl⟩
          · rcases hs with hs | hs | hs <;> simp [hs, signText]
          · cases hx : r.ex with
            | none => exact Or.inl ⟨rfl, rfl⟩
            | some q =>
              obtain ⟨u, ds⟩ := q
              rw [hx] at hex h1
              obtain ⟨hu, hd⟩ := hex
              refine Or.inr ⟨e, signText u, ds, rfl, he, by simpa using h1.2, hd, ?_⟩
              rw [exponent_eq hd]
              rcases hu with rfl | rfl | rfl <;> simp [signText]
          · rw [← habs]
            rcases hs with hs | hs | hs <;> simp [hs, signText]
    · simp [if_neg hg, setFail] at h

/-! ### Floating-point numbers: writing -/

theorem digitsPad_length (k m : ℕ) : (digitsPad k m).length = k := by
  induction k generalizing m with
  | zero => rfl
  | succ k ih => simp [digitsPad, ih]

theorem digitsPad_digits (k m : ℕ) : ∀ c ∈ digitsPad k m, IsDigit 10 c := by
  induction k generalizing m with
  | zero => simp [digitsPad]
  | succ k ih =>
    intro c hc
    rw [digitsPad] at hc
    rcases List.mem_append.1 hc with hc | hc
    · exact ih _ c hc
    · rw [List.mem_singleton.1 hc, IsDigit]
      have := digitChar (d := m % 10) (by omega)
      rw [show '0'.toNat = 48 from rfl, this]; omega

theorem numeral_append (l ds : List Char) : numeral 10 (l ++ ds) = numeral 10 l * 10 ^ ds.length + numeral 10 ds := by
  induction ds using List.reverseRecOn with
  | nil => simp [numeral]
  | append_singleton ds c ih =>
    rw [← List.append_assoc, numeral_snoc, ih, numeral_snoc]
    simp only [List.length_append, List.length_singleton, pow_succ]
    ring

theorem numeral_digitsPad (k m : ℕ) (h : m < 10 ^ k) : numeral 10 (digitsPad k m) = m := by
  induction k generalizing m with
  | zero => simp at h; subst h; rfl
  | succ k ih =>
    have := digitChar (d := m % 10) (by omega)
    rw [digitsPad, numeral_snoc, ih _ (by rw [pow_succ] at h; omega), show '0'.toNat = 48 from rfl, this]
    omega

/-- what is written for a non-negative number is a text for the number rounded to the decimals -/
theorem text_fixed {F : FloatType} {k : ℕ} {neg : Bool} {a : ℚ} (h0 : 0 ≤ a) (h : F.round (shown k a) < 2 ^ F.emax) :
    RealText F (.fin neg (F.round (shown k a))) (outF k (.fin neg a)) := by
  have hn0 := rneInt_nonneg (q := a * 10 ^ k) (by positivity)
  set n := (FP.rneInt (a * 10 ^ k)).toNat with hn
  have hnq : (n : ℚ) = FP.rneInt (a * 10 ^ k) := by
    have : (n : ℤ) = FP.rneInt (a * 10 ^ k) := by omega
    exact_mod_cast this
  obtain ⟨d1, d2, d3⟩ := decimal_spec (n / 10 ^ k)
  have hm : n % 10 ^ k < 10 ^ k := Nat.mod_lt _ (by positivity)
  have hnum : numeral 10 (decimal (n / 10 ^ k) ++ digitsPad k (n % 10 ^ k)) = n := by
    rw [numeral_append, d3, digitsPad_length, numeral_digitsPad _ _ hm]
    exact Nat.div_add_mod' n (10 ^ k)
  have hq : ((numeral 10 (decimal (n / 10 ^ k) ++ digitsPad k (n % 10 ^ k)) : ℕ) : ℚ) /
      10 ^ (digitsPad k (n % 10 ^ k)).length * 10 ^ (0 : ℤ) = shown k a := by
    rw [hnum, digitsPad_length, zpow_zero, mul_one, shown, hnq]
  refine ⟨if neg then ['-'] else [], decimal (n / 10 ^ k), if k = 0 then [] else '.' :: digitsPad k (n % 10 ^ k),
    digitsPad k (n % 10 ^ k), [], 0, ?_, ?_, d2, digitsPad_digits _ _, fun h => d1 h.1, ?_, Or.inl ⟨rfl, rfl⟩, ?_, ?_⟩
  · simp only [outF, fixed, List.append_nil, List.append_assoc]
    rfl
  · cases neg <;> simp
  · by_cases hk : k = 0
    · subst hk; left; exact ⟨rfl, rfl⟩
    · right; rw [if_neg hk]
  · rw [hq]; exact h
  · rw [hq]; cases neg <;> simp

theorem value_lt {F : FloatType} {a : ℚ} (h : Value F a) : a < 2 ^ F.emax := by
  obtain ⟨_, _, _, _, _, h⟩ := h; exact h

/-- a number read back is not too large -/
theorem round_shown_lt {F : FloatType} {k : ℕ} (hk : 5 ^ k ≤ 2 ^ (F.p - 1)) {a : ℚ} (h : Value F a) :
    F.round (shown k a) < 2 ^ F.emax := by
  have hv := Val'.of_value h
  rcases hv.nonneg.eq_or_lt with rfl | hpos
  · rw [shown_int (j := 0) (by simp), round_zero]; positivity
  rcases lt_or_ge ((1 : ℚ) / 10 ^ k) (2 ^ place F a) with hc | hc
  · rw [round_shown_coarse hk hv hpos hc]; exact value_lt h
  · have h1 := round_shown_err (k := k) hv
    rw [abs_le] at h1
    have h10 : (1 : ℚ) / 10 ^ k ≤ 1 := by
      rw [div_le_one (by positivity)]; exact one_le_pow₀ (by norm_num)
    have hpl : place F a ≤ 0 := by
      by_contra hcon
      have : (2 : ℚ) ^ (1 : ℤ) ≤ 2 ^ place F a := zpow_le_zpow_right₀ (by norm_num) (by omega)
      norm_num at this
      linarith
    have h2 := (log_bounds hpos).2
    have h3 : (2 : ℚ) ^ (Int.log 2 a + 1) ≤ 2 ^ (F.p : ℤ) := zpow_le_zpow_right₀ (by norm_num) (by unfold place at hpl; omega)
    have h4 : (2 : ℚ) ^ (F.p : ℤ) + 1 ≤ 2 ^ ((F.p : ℤ) + 1) := by
      rw [zpow_add₀ (by norm_num : (2 : ℚ) ≠ 0), zpow_one, zpow_natCast]
      have : (1 : ℚ) ≤ 2 ^ F.p := one_le_pow₀ (by norm_num)
      linarith
    have h5 : (2 : ℚ) ^ ((F.p : ℤ) + 1) ≤ 2 ^ F.emax := by
      refine zpow_le_zpow_right₀ (by norm_num) ?_
      cases F <;> simp [FloatType.p, FloatType.emax]
    linarith

/-- what a floating-point number becomes -/
def backF (F : FloatType) (k : ℕ) : FVal → FVal
  | .fin neg a => .fin neg (F.round (shown k a))
  | v => v

theorem text_back {F : FloatType} {k : ℕ} (hk : 5 ^ k ≤ 2 ^ (F.p - 1)) {v : FVal} (hv : ValFits (.real F) v) :
    RealText F (backF F k v) (outF k v) := by
  obtain ⟨neg, a, rfl, hv⟩ := hv
  exact text_fixed (Val'.of_value hv).nonneg (round_shown_lt hk hv)

/-- what a value becomes -/
def backVal (k : ℕ) : (T : Ty) → T.Val → T.Val
  | .real F, v => backF F k v
  | .int, v => v
  | .unsigned _, v => v

def backTuple (k : ℕ) : (Ts : List Ty) → Tuple Ts → Tuple Ts
  | [], v => v
  | T :: Ts, v => (backVal k T v.1, backTuple k Ts v.2)

/-- what parameters become when they are written and read -/
def back (k : ℕ) : (L : Layout) → L.State → L.State
  | .tuple Ts, P => backTuple k Ts P
  | .weights _, P => (P.1, P.2.map (backF .double k))
  | .matrix F, P => (P.1, P.2.map (backF F k))

theorem backVal_near (k : ℕ) (T : Ty) {v : T.Val} (h : ValFits T v) : ValNear k T v (backVal k T v) := by
  cases T with
  | int => exact rfl
  | unsigned _ => exact rfl
  | real F =>
    obtain ⟨neg, a, hv, h⟩ := h
    rw [hv]
    exact ⟨neg, a, _, rfl, rfl, round_shown_err (.of_value h)⟩

theorem backVal_iff {k : ℕ} {T : Ty} (hk : ∀ F, T = .real F → 5 ^ k ≤ 2 ^ (F.p - 1)) {v : T.Val} (h : ValFits T v) :
    backVal k T v = v ↔ ValLiteral k T v := by
  cases T with
  | int => exact ⟨fun _ => trivial, fun _ => rfl⟩
  | unsigned _ => exact ⟨fun _ => trivial, fun _ => rfl⟩
  | real F =>
    obtain ⟨neg, a, hv, h⟩ := h
    rw [hv]
    constructor
    · intro h' neg' b hb
      obtain ⟨rfl, rfl⟩ : neg = neg' ∧ a = b := by
        have hb' : FVal.fin neg a = FVal.fin neg' b := hb
        simpa only [FVal.fin.injEq] using hb'
      have : F.round (shown k a) = a := by
        have h'' : FVal.fin neg (F.round (shown k a)) = FVal.fin neg a := h'
        simpa using h''
      exact literal_of_round_shown (Val'.of_value h).nonneg this
    · intro h'
      have := round_shown_literal (hk F rfl) (.of_value h) (h' neg a rfl)
      show FVal.fin neg (F.round (shown k a)) = FVal.fin neg a
      rw [this]

theorem backTuple_near {k : ℕ} {Ts : List Ty} {P : Tuple Ts} (h : AllTuple ValFits Ts P) :
    RelTuple (ValNear k) Ts P (backTuple k Ts P) := by
  induction Ts with
  | nil => trivial
  | cons T Ts ih => exact ⟨backVal_near k T h.1, ih h.2⟩

theorem backTuple_iff {k : ℕ} {Ts : List Ty} (hk : ∀ F, Ty.real F ∈ Ts → 5 ^ k ≤ 2 ^ (F.p - 1)) {P : Tuple Ts}
    (h : AllTuple ValFits Ts P) : backTuple k Ts P = P ↔ AllTuple (ValLiteral k) Ts P := by
  induction Ts with
  | nil => exact ⟨fun _ => trivial, fun _ => rfl⟩
  | cons T Ts ih =>
    obtain ⟨v, P⟩ := P
    have h1 := backVal_iff (T := T) (k := k) (fun F hF => hk F (by simp [hF])) h.1
    have h2 := ih (fun F hF => hk F (by simp [hF])) h.2
    show (backVal k T v, backTuple k Ts P) = (v, P) ↔ ValLiteral k T v ∧ AllTuple (ValLiteral k) Ts P
    rw [Prod.mk.injEq, h1, h2]

theorem map_iff {F : FloatType} {k : ℕ} (hk : 5 ^ k ≤ 2 ^ (F.p - 1)) {l : List FVal} (h : ∀ v ∈ l, ValFits (.real F) v) :
    l.map (backF F k) = l ↔ ∀ v ∈ l, ValLiteral k (.real F) v := by
  induction l with
  | nil => simp
  | cons v l ih =>
    have h1 := backVal_iff (T := .real F) (k := k) (fun G hG => by cases hG; exact hk) (h v (by simp))
    have h2 := ih fun v hv => h v (by simp [hv])
    rw [List.map_cons, List.cons.injEq, h2]
    have h1' : backF F k v = v ↔ ValLiteral k (.real F) v := h1
    rw [h1']
    constructor
    · rintro ⟨h3, h4⟩ w hw
      rcases List.mem_cons.1 hw with rfl | hw
      · exact h3
      · exact h4 w hw
    · intro h3
      exact ⟨h3 v (by simp), fun w hw => h3 w (by simp [hw])⟩

theorem map_near {F : FloatType} {k : ℕ} {l : List FVal} (h : ∀ v ∈ l, ValFits (.real F) v) :
    List.Forall₂ (ValNear k (.real F)) l (l.map (backF F k)) := by
  induction l with
  | nil => exact .nil
  | cons v l ih => exact .cons (backVal_near k (.real F) (h v (by simp))) (ih fun v hv => h v (by simp [hv]))

/-- the floating-point types of the parameters -/
def reals : Layout → List FloatType
  | .tuple Ts => Ts.filterMap fun T => match T with | .real F => some F | _ => none
  | .weights _ => [.double]
  | .matrix F => [F]

theorem mem_reals {Ts : List Ty} {F : FloatType} : F ∈ reals (.tuple Ts) ↔ Ty.real F ∈ Ts := by
  simp only [reals, List.mem_filterMap]
  constructor
  · rintro ⟨T, h1, h2⟩
    cases T <;> simp at h2
    subst h2; exact h1
  · intro h; exact ⟨_, h, rfl⟩

theorem back_near {k : ℕ} {L : Layout} {P : L.State} (h : Fits L P) : Rel (ValNear k) L P (back k L P) := by
  cases L with
  | tuple Ts => exact backTuple_near h.2
  | weights b => exact ⟨rfl, map_near h.2⟩
  | matrix F => exact ⟨rfl, map_near h.2⟩

theorem back_iff {k : ℕ} {L : Layout} {P : L.State} (hk : ∀ F ∈ reals L, 5 ^ k ≤ 2 ^ (F.p - 1)) (h : Fits L P) :
    back k L P = P ↔ All (ValLiteral k) L P := by
  cases L with
  | tuple Ts => exact backTuple_iff (fun F hF => hk F (mem_reals.2 hF)) h.2
  | weights b =>
    obtain ⟨N, l⟩ := P
    have := map_iff (hk .double (by simp [reals])) h.2
    show (N, l.map (backF .double k)) = (N, l) ↔ _
    rw [Prod.mk.injEq, this]
    exact ⟨fun h => h.2, fun h => ⟨rfl, h⟩⟩
  | matrix F =>
    obtain ⟨N, l⟩ := P
    have := map_iff (hk F (by simp [reals])) h.2
    show (N, l.map (backF F k)) = (N, l) ↔ _
    rw [Prod.mk.injEq, this]
    exact ⟨fun h => h.2, fun h => ⟨rfl, h⟩⟩

end Trng.DistText
