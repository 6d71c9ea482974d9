import Verif.Proofs.DistRead
import Verif.Proofs.StreamPrint

/-! The characters in the texts of distributions, and what follows for the reader. -/
namespace Trng.DistText
open Trng.Stream Trng.Stream.In Trng.StreamSpec Trng.Spec Trng.DistTextSpec

/-- the characters of parameters -/
def ParamChar (c : Char) : Prop :=
  IsDigit 10 c ∨ c = '+' ∨ c = '-' ∨ c = '.' ∨ c = 'e' ∨ c = 'E' ∨ c = ' ' ∨ c = '(' ∨ c = ')'

theorem ParamChar.ne {c : Char} (h : ParamChar c) : c ≠ ']' ∧ c ≠ 'f' ∧ c ≠ 'n' := by
  refine ⟨?_, ?_, ?_⟩ <;> rintro rfl <;> revert h <;> unfold ParamChar <;> decide

theorem real_chars {F : FloatType} {v : FVal} {t : List Char} (h : RealText F v t) : ∀ c ∈ t, ParamChar c := by
  obtain ⟨sign, ip, fraction, fp, ex, x, rfl, hs, hip, hfp, _, hfr, hex, _⟩ := h
  intro c hc
  simp only [List.mem_append] at hc
  rcases hc with ((hc | hc) | hc) | hc
  · rcases hs with rfl | rfl | rfl <;> simp at hc <;> subst hc <;> simp [ParamChar]
  · exact Or.inl (hip c hc)
  · rcases hfr with ⟨rfl, _⟩ | rfl
    · simp at hc
    · rcases List.mem_cons.1 hc with rfl | hc
      · simp [ParamChar]
      · exact Or.inl (hfp c hc)
  · rcases hex with ⟨rfl, _⟩ | ⟨e, xs, ds, rfl, he, _, hds, hxs⟩
    · simp at hc
    · simp only [List.mem_append, List.cons_append, List.mem_cons] at hc
      rcases hc with rfl | hc | hc
      · rcases he with rfl | rfl <;> simp [ParamChar]
      · rcases hxs with ⟨rfl | rfl, _⟩ | ⟨rfl, _⟩ <;> simp at hc <;> subst hc <;> simp [ParamChar]
      · exact Or.inl (hds c hc)

theorem unsigned_chars {w : ℕ} {v : BitVec w} {t : List Char} (h : Field.Text (.unsigned w v) t) : ∀ c ∈ t, ParamChar c := by
  obtain ⟨sign, ds, rfl, _, hds, _, hs⟩ := h
  intro c hc
  rcases List.mem_append.1 hc with hc | hc
  · rcases hs with ⟨rfl | rfl, _⟩ | ⟨rfl, _⟩ <;> simp at hc <;> subst hc <;> simp [ParamChar]
  · exact Or.inl (hds c hc)

theorem int_chars {v : ℤ} {t : List Char} (h : Field.Text (.int v) t) : ∀ c ∈ t, ParamChar c := by
  obtain ⟨sign, ds, rfl, _, hds, _, _, hs⟩ := h
  intro c hc
  rcases List.mem_append.1 hc with hc | hc
  · rcases hs with ⟨rfl | rfl, _⟩ | ⟨rfl, _⟩ <;> simp at hc <;> subst hc <;> simp [ParamChar]
  · exact Or.inl (hds c hc)

theorem tail_chars {ts : List (List Char)} (h : ∀ t ∈ ts, ∀ c ∈ t, ParamChar c) : ∀ c ∈ tail ts, ParamChar c := by
  induction ts with
  | nil => simp
  | cons t ts ih =>
    intro c hc
    rw [tail_cons, List.mem_cons, List.mem_append] at hc
    rcases hc with rfl | hc | hc
    · simp [ParamChar]
    · exact h t (by simp) c hc
    · exact ih (fun t ht => h t (by simp [ht])) c hc

theorem join_chars {ts : List (List Char)} (h : ∀ t ∈ ts, ∀ c ∈ t, ParamChar c) : ∀ c ∈ join ts, ParamChar c := by
  cases ts with
  | nil => simp
  | cons t ts =>
    intro c hc
    rw [join_cons, List.mem_append] at hc
    rcases hc with hc | hc
    · exact h t (by simp) c hc
    · exact tail_chars (fun t ht => h t (by simp [ht])) c hc

theorem tupleTexts_chars {Ts : List Ty} {P : Tuple Ts} {ts : List (List Char)} (h : TupleTexts Ts P ts) :
    ∀ t ∈ ts, ∀ c ∈ t, ParamChar c := by
  induction Ts generalizing ts with
  | nil =>
    have : ts = [] := h
    subst this; simp
  | cons T Ts ih =>
    obtain ⟨t, ts', rfl, h1, h2⟩ := h
    intro u hu
    rcases List.mem_cons.1 hu with rfl | hu
    · cases T with
      | int => exact int_chars h1
      | unsigned w => exact unsigned_chars h1
      | real F => exact real_chars h1
    · exact ih h2 u hu

theorem forall_chars {F : FloatType} {l : List FVal} {ts : List (List Char)} (h : List.Forall₂ (RealText F) l ts) :
    ∀ t ∈ ts, ∀ c ∈ t, ParamChar c := by
  induction h with
  | nil => simp
  | cons h1 _ ih =>
    intro u hu
    rcases List.mem_cons.1 hu with rfl | hu
    · exact real_chars h1
    · exact ih u hu

theorem param_chars {L : Layout} {P : L.State} {t : List Char} (h : ParamText L P t) : ∀ c ∈ t, ParamChar c := by
  have wrap : ∀ u : List Char, (∀ c ∈ u, ParamChar c) → ∀ c ∈ '(' :: (u ++ [')']), ParamChar c := by
    intro u hu c hc
    simp only [List.mem_cons, List.mem_append, List.not_mem_nil, or_false] at hc
    rcases hc with rfl | hc | rfl
    · simp [ParamChar]
    · exact hu c hc
    · simp [ParamChar]
  cases L with
  | tuple Ts =>
    obtain ⟨ts, h1, rfl⟩ := h
    exact wrap _ (join_chars (tupleTexts_chars h1))
  | weights b =>
    obtain ⟨n, ts, h1, _, h2, _, rfl⟩ := h
    have e : ['('] ++ n ++ [' '] ++ [' '].intercalate ts ++ [')'] = '(' :: ((n ++ ' ' :: join ts) ++ [')']) := by
      simp [join]
    rw [e]
    refine wrap _ fun c hc => ?_
    rw [List.mem_append, List.mem_cons] at hc
    rcases hc with hc | rfl | hc
    · exact unsigned_chars h1 c hc
    · simp [ParamChar]
    · exact join_chars (forall_chars h2) c hc
  | matrix F =>
    obtain ⟨n, ts, h1, _, _, h2, rfl⟩ := h
    refine wrap _ (join_chars fun u hu => ?_)
    rcases List.mem_cons.1 hu with rfl | hu
    · exact unsigned_chars h1
    · exact forall_chars h2 u hu

theorem param_open {L : Layout} {P : L.State} {t : List Char} (h : ParamText L P t) : ∃ k, t = '(' :: k := by
  cases L with
  | tuple Ts => obtain ⟨ts, h1, rfl⟩ := h; exact ⟨_, rfl⟩
  | weights b => obtain ⟨n, ts, _, _, _, _, rfl⟩ := h; exact ⟨_, rfl⟩
  | matrix F => obtain ⟨n, ts, _, _, _, _, rfl⟩ := h; exact ⟨_, rfl⟩

theorem inName_chars (d : Dist) : ∀ c ∈ d.inName.toList, c ≠ ']' ∧ c ≠ '(' := by
  cases d <;> simp only [Dist.inName] <;> decide

theorem outName_open (d : Dist) : ∃ cs, d.outName.toList = '[' :: cs := by
  cases d <;> exact ⟨_, by simp only [Dist.outName]; rfl⟩

theorem outName_chars (d : Dist) : ∀ c ∈ d.outName.toList, c ≠ ']' ∧ c ≠ '(' := by
  cases d <;> simp only [Dist.outName] <;> decide

/-- the part before the first occurrence of a character -/
theorem split_at {x : Char} {a b k k' : List Char} (ha : ∀ c ∈ a, c ≠ x) (hb : ∀ c ∈ b, c ≠ x) (h : a ++ x :: k = b ++ x :: k') :
    a = b ∧ k = k' := by
  induction a generalizing b with
  | nil =>
    cases b with
    | nil => simpa using h
    | cons c b =>
      simp only [List.nil_append, List.cons_append, List.cons.injEq] at h
      exact absurd h.1.symm (hb c (by simp))
  | cons d a ih =>
    cases b with
    | nil =>
      simp only [List.nil_append, List.cons_append, List.cons.injEq] at h
      exact absurd h.1 (ha d (by simp))
    | cons c b =>
      simp only [List.cons_append, List.cons.injEq] at h
      obtain ⟨h1, h2⟩ := ih (fun c hc => ha c (by simp [hc])) (fun c hc => hb c (by simp [hc])) h.2
      exact ⟨by rw [h.1, h1], h2⟩

theorem outName_eq {d : Dist} (h : ∀ F, d ≠ .twosidedExponential F) : d.outName = d.inName := by
  cases d with
  | twosidedExponential F => exact absurd rfl (h F)
  | _ => rfl

/-- a text of the right form with the right name, after blanks -/
theorem same_text {d : Dist} {bl bl' u k t k' : List Char} {v : d.State} (hb : ∀ c ∈ bl, Blank c) (hb' : ∀ c ∈ bl', Blank c)
    (ht : Text d.inName d.layout v t) (hu : ∀ c ∈ u, c ≠ ']')
    (h : bl ++ (d.inName.toList ++ u ++ [']']) ++ k = bl' ++ t ++ k') : ParamText d.layout v u := by
  obtain ⟨t', h1, rfl⟩ := ht
  obtain ⟨cs, hcs⟩ := inName_open d
  rw [hcs] at h
  have h2 := blanks_unique hb hb' (k := cs ++ (u ++ ']' :: k)) (k' := cs ++ (t' ++ ']' :: k')) (by simpa using h)
  have h3 := split_at (fun c hc => hu c hc) (fun c hc => (param_chars h1 c hc).ne.1) (List.append_cancel_left h2)
  rw [h3.1]; exact h1

/-- the name in a text -/
theorem same_name {a b : List Char} (ha : ∀ c ∈ a, c ≠ '(') (hb : ∀ c ∈ b, c ≠ '(') {cs cs' : List Char} (hcs : a = '[' :: cs)
    (hcs' : b = '[' :: cs') {bl bl' u u' : List Char} (hbl : ∀ c ∈ bl, Blank c) (hbl' : ∀ c ∈ bl', Blank c)
    (h : bl ++ (a ++ '(' :: u) = bl' ++ (b ++ '(' :: u')) : a = b := by
  subst hcs hcs'
  have h2 := blanks_unique hbl hbl' (k := cs ++ '(' :: u) (k' := cs' ++ '(' :: u') (by simpa using h)
  have h3 := split_at (fun c hc => ha c (by simp [hc])) (fun c hc => hb c (by simp [hc])) h2
  rw [h3.1]

theorem text_close {d : Dist} {v : d.State} {t : List Char} (h : Text d.inName d.layout v t) : ∃ t', t = t' ++ [']'] ∧ ']' ∉ t' := by
  obtain ⟨t', h1, rfl⟩ := h
  refine ⟨_, rfl, fun hm => ?_⟩
  rcases List.mem_append.1 hm with hm | hm
  · exact (inName_chars d _ hm).1 rfl
  · exact (param_chars h1 _ hm).ne.1 rfl

/-- reading numbers: if no text is there, the object is unchanged -/
theorem unchanged_of_not {d : Dist} (hd : Numbers d) (R : d.State) (s : In)
    (h : s.fail = false → ¬ ∃ blanks t rest v, (∀ c ∈ blanks, Blank c) ∧ Text d.inName d.layout v t ∧ s.rest = blanks ++ t ++ rest) :
    ∃ s', d.read R s = some (R, s') ∧ s'.fail = true := by
  obtain ⟨ts, hd⟩ := hd
  obtain ⟨⟨v, s'⟩, he⟩ := Option.isSome_iff_exists.1 (dist_defined hd R s)
  cases hf : s'.fail with
  | true =>
    have := dist_unchanged d R v s s' he hf
    exact ⟨s', by rw [he, this], hf⟩
  | false =>
    obtain ⟨h1, bl, t, h2, h3, h4⟩ := dist_sound d R v s s' he hf
    exact absurd ⟨bl, t, _, _, h2, h3, h4⟩ (h h1)

theorem outF_chars (k : ℕ) (v : FVal) : ∀ c ∈ outF k v, c ≠ ']' := by
  have fixedDigits : ∀ a, ∀ c ∈ fixed k a, c ≠ ']' := by
    intro a c hc
    rw [fixed, List.mem_append] at hc
    rcases hc with hc | hc
    · have := (decimal_spec _).2.1 c hc
      rintro rfl; revert this; decide
    · split at hc
      · simp at hc
      · rcases List.mem_cons.1 hc with rfl | hc
        · decide
        · have := digitsPad_digits _ _ c hc
          rintro rfl; revert this; decide
  cases v with
  | fin neg a =>
    intro c hc
    rw [outF, List.mem_append] at hc
    rcases hc with hc | hc
    · cases neg <;> simp at hc; subst hc; decide
    · exact fixedDigits a c hc
  | inf neg => cases neg <;> simp only [outF] <;> decide
  | nan neg => cases neg <;> simp only [outF] <;> decide

theorem print_eq (d : Dist) {width : ℕ} (hw : width ≤ d.outName.length) (fill : Char) (prec : ℕ) (P : d.State) :
    (d.print width fill prec P).1 = d.outName.toList ++ d.layout.out (d.precision.getD prec) P ++ [']'] := by
  have hw : width - d.outName.toList.length = 0 := by rw [String.length_toList]; omega
  simp [Dist.print, hw]

theorem outF_head (k : ℕ) (v : FVal) : ∃ c r, outF k v = c :: r ∧ c ≠ ')' := by
  have key : ∀ t : List Char, t ≠ [] → (∀ c ∈ t, c ≠ ')') → ∃ c r, t = c :: r ∧ c ≠ ')' := by
    intro t h1 h2
    cases t with
    | nil => exact absurd rfl h1
    | cons c r => exact ⟨c, r, rfl, h2 c (by simp)⟩
  cases v with
  | fin neg a =>
    cases neg with
    | true => exact ⟨'-', fixed k a, rfl, by decide⟩
    | false =>
      obtain ⟨h1, h2, _⟩ := decimal_spec ((FP.rneInt (a * 10 ^ k)).toNat / 10 ^ k)
      obtain ⟨c, r, h3, h4⟩ := key _ h1 fun c hc => by
        have := h2 c hc
        rintro rfl; revert this; decide
      exact ⟨c, r ++ _, by simp only [outF, fixed, h3]; rfl, h4⟩
  | inf neg => cases neg <;> exact ⟨_, _, rfl, by decide⟩
  | nan neg => cases neg <;> exact ⟨_, _, rfl, by decide⟩

/-- zero weights announced, but something else than the parenthesis follows -/
theorem read_zero (P : ℕ × List FVal) (c : Char) (hc : c ≠ ')') (k : List Char) :
    ∃ s', (Layout.weights true).read P ⟨'(' :: '0' :: ' ' :: c :: k, false, false⟩ = some (P, s') ∧ s'.fail = true := by
  have h0 : readU 64 ⟨'0' :: ' ' :: c :: k, false, false⟩ = (0#64, ⟨' ' :: c :: k, false, false⟩) :=
    (reads_unsigned 64).ok 0#64 ['0'] ' ' (c :: k) ⟨[], ['0'], rfl, by simp, by decide, by decide, Or.inl ⟨Or.inl rfl, by decide⟩⟩
      (by decide)
  have h1 : (delimC ')' ⟨c :: k, false, false⟩).fail = true := by
    by_contra h
    obtain ⟨_, h⟩ := delimC_sound (Bool.eq_false_iff.2 h)
    simp only [List.cons.injEq] at h
    exact hc h.1
  refine ⟨delimC ')' ⟨c :: k, false, false⟩, ?_, h1⟩
  simp only [Layout.read, delimC_ok, good_ok, h0, BitVec.toNat_ofNat, Nat.zero_mod, weightLoop, h1, if_true]
  rfl

/-- without the name and the parenthesis -/
theorem read_undefined {d : Dist} (hd : ¬ Numbers d) (R : d.State) (s : In)
    (h : s.fail = true ∨ ¬ ∃ blanks rest, (∀ c ∈ blanks, Blank c) ∧ s.rest = blanks ++ d.inName.toList ++ '(' :: rest) :
    d.read R s = none := by
  have hg : (delimC '(' (s.ignoreSpaces.delimStr d.inName.toList)).good = false := by
    by_contra hc
    have hf : (delimC '(' (s.ignoreSpaces.delimStr d.inName.toList)).fail = false := by
      simp only [good, Bool.not_eq_false, Bool.and_eq_true, Bool.not_eq_true'] at hc
      tauto
    obtain ⟨h1, h2⟩ := delimC_sound hf
    obtain ⟨h3, h4⟩ := delimStr_sound h1
    obtain ⟨h7, bl, h5, h6⟩ := ignoreSpaces_sound s
    rcases h with h | h
    · simp_all
    · exact h ⟨bl, (delimC '(' (s.ignoreSpaces.delimStr d.inName.toList)).rest, h5, by rw [h6, h4, h2]; simp⟩
  have key : ∀ L : Layout, (¬ ∃ Ts, L = .tuple Ts) → ∀ P s, (delimC '(' s).good = false → L.read P s = none := by
    intro L hL P s hs
    cases L with
    | tuple Ts => exact absurd ⟨Ts, rfl⟩ hL
    | weights b => simp [Layout.read, hs]
    | matrix F => simp [Layout.read, hs]
  rw [Dist.read, key _ hd _ _ hg]

theorem not_fast {d : Dist} (h : d ≠ .fastDiscrete) : d.layout ≠ .weights true := by
  cases d with
  | fastDiscrete => exact absurd rfl h
  | _ => simp [Dist.layout]

theorem bernoulli_prec {d : Dist} {prec : ℕ} (hp : prec ≤ 22 ∧ (d = .bernoulli (.real .float) → prec ≤ 9)) :
    d.precision = none → ∀ F ∈ reals d.layout, 5 ^ prec ≤ 2 ^ (F.p - 1) := by
  have h22 : 5 ^ prec ≤ 2 ^ 52 := (Nat.pow_le_pow_right (by norm_num) hp.1).trans (by norm_num)
  intro h
  cases d with
  | bernoulli T =>
    intro F hF
    have hF' := mem_reals.1 hF
    simp only [List.mem_cons, List.not_mem_nil, or_false, Ty.real.injEq, or_self] at hF'
    rcases hF' with rfl | rfl
    · exact h22
    · cases F with
      | float => exact (Nat.pow_le_pow_right (by norm_num) (hp.2 rfl)).trans (by norm_num [FloatType.p])
      | double => exact h22
      | longDouble => exact h22.trans (by norm_num [FloatType.p])
  | chiSquare | studentT | snedecorF | uniformInt | uniform01 => simp [Dist.layout, reals]
  | _ => simp [Dist.precision] at h

end Trng.DistText
