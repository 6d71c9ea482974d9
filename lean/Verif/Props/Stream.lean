import Verif.Proofs.StreamNames

/- C45: engine text round trip; C46: failed reads leave the engine unchanged.  `E` ranges over all engine types, `E.State`
are the objects of the type.  See Verif/Spec/Stream.lean for the format. -/
namespace Trng
open Trng.Stream StreamSpec Spec

/-! ### C45 -/

/-- Reading what was written, into any object of the type, after any blanks and with anything following, gives the object
written, and exactly the blanks and the text are consumed. -/
theorem C45_round_trip (E : Engine) (e : E.State) (he : Fits E e) (R : E.State) (width : Nat) (hw : width ≤ 1) (fill : Char)
    (blanks rest : List Char) (hb : ∀ c ∈ blanks, Blank c) :
    E.read R { rest := blanks ++ E.print width fill e ++ rest } = (e, { rest := rest }) := by
  obtain ⟨ts, h1, h2⟩ := text_print E e he hw fill
  rw [h2]
  exact (engineReads E).ok R e blanks ts rest hb h1

example : Fits .minstd (⟨77⟩ : Minstd) ∧ Engine.print 0 ' ' .minstd (⟨77⟩ : Minstd) = "[minstd (77)]".toList := by
  constructor
  · intro fs hfs f hf v hv
    rw [List.mem_singleton.1 hfs] at hf
    rw [List.mem_singleton.1 hf] at hv
    cases hv
  · have h : outU (77#32) = ['7', '7'] := by simp [outU, decimal]
    show print1 0 ' ' Engine.minstd.name (minstdStatus 77#32) = _
    rw [minstdStatus, h]; decide

/-- Objects of the mrg and yarn engines whose numbers are residues satisfy the assumption of the round trip. -/
theorem C45_fits_mrg (k : Kind) (e : MRG k.order) (h : ∀ i, (0 ≤ e.a i ∧ e.a i < k.modulus) ∧ 0 ≤ e.r i ∧ e.r i < k.modulus) :
    Fits (.mrg k) e ∧ Fits (.yarn k) e := by
  have hm : (k.modulus : Int) ≤ 2 ^ 31 := by cases k <;> decide
  have : Fits (.mrg k) e := by
    intro fs hfs f hf v hv
    simp only [fields, List.mem_cons, List.not_mem_nil, or_false] at hfs
    rcases hfs with rfl | rfl
    · obtain ⟨i, rfl⟩ := (List.mem_ofFn' _ _).1 hf
      have := h i
      cases hv
      omega
    · obtain ⟨i, rfl⟩ := (List.mem_ofFn' _ _).1 hf
      have := h i
      cases hv
      omega
  exact ⟨this, this⟩

/-- What is written is a text of the documented form. -/
theorem C45_format (E : Engine) (e : E.State) (he : Fits E e) (fill : Char) : Text E e (E.print 0 fill e) :=
  text_print E e he (by omega) fill

/-- Different engine types have different names. -/
theorem C45_names (E E' : Engine) (h : E.name = E'.name) : E = E' := name_injective h

/-- Wrong: if the caller has set a field width of two or more, the text is padded after the bracket and is not accepted
(by no engine whose name does not begin with the fill character). -/
theorem C45_width_wrong (E : Engine) (e R : E.State) (width : Nat) (hw : 2 ≤ width) (fill : Char)
    (hf : E.name.head? ≠ some fill) (rest : List Char) :
    E.read R { rest := E.print width fill e ++ rest } = (R, (E.read R { rest := E.print width fill e ++ rest }).2) ∧
    (E.read R { rest := E.print width fill e ++ rest }).2.fail = true := by
  have hopen : ∃ k, E.print width fill e = '[' :: fill :: k := by
    have h0 : outOpen width fill = '[' :: fill :: List.replicate (width - 2) fill := by
      rw [outOpen, show width - 1 = (width - 2) + 1 by omega, List.replicate_succ]
    have h2 : ∀ name P S, ∃ k, print2 width fill name P S = '[' :: fill :: k :=
      fun name P S => ⟨_, by simp only [print2, h0, List.cons_append]; rfl⟩
    have h1 : ∀ name S, ∃ k, print1 width fill name S = '[' :: fill :: k :=
      fun name S => ⟨_, by simp only [print1, h0, List.cons_append]; rfl⟩
    cases E with
    | minstd => exact h1 _ _
    | xoshiro256plus => exact h1 _ _
    | lagfib P w => exact h1 _ _
    | lcg64 => exact h2 _ _ _
    | lcg64Shift => exact h2 _ _ _
    | lcg64CountShift => exact h2 _ _ _
    | count128LcgShift => exact h2 _ _ _
    | mrg k => exact h2 _ _ _
    | yarn k => exact h2 _ _ _
    | mt19937 => exact h2 _ _ _
    | mt19937_64 => exact h2 _ _ _
  obtain ⟨k, hk⟩ := hopen
  have hfail : (E.read R { rest := E.print width fill e ++ rest }).2.fail = true := by
    cases h : (E.read R { rest := E.print width fill e ++ rest }).2.fail with
    | true => rfl
    | false =>
      obtain ⟨_, bl, ts, hb, ht, h⟩ := (engineReads E).sound _ _ h
      obtain ⟨k', hk'⟩ := text_open (E := E) ⟨ts, ht, rfl⟩
      rw [hk, hk'] at h
      have := blanks_unique (bl := []) (by simp) hb (k := fill :: (k ++ rest)) (by simpa using h)
      cases hn : E.name with
      | nil =>
        rw [hn] at this
        have hne : ∀ E : Engine, E.name ≠ [] := by
          intro E
          cases E with
          | lagfib P w => intro h; have := lagfib_take P w; rw [h] at this; simp at this
          | mrg k => cases k <;> decide
          | yarn k => cases k <;> decide
          | _ => decide
        exact absurd hn (hne E)
      | cons c cs =>
        rw [hn] at this hf
        simp only [List.cons_append, List.cons.injEq] at this
        exact absurd (by simp [this.1]) hf
  exact ⟨Prod.ext ((engineReads E).unchanged R _ hfail) rfl, hfail⟩

example : Engine.minstd.name.head? ≠ some ' ' := by decide

/-! ### C46 -/

/-- Reading from any stream in any state either sets `failbit` and leaves the object as it was, or consumes blanks and
a complete text for the object it gives. -/
theorem C46_read (E : Engine) (R : E.State) (s : In) :
    ((E.read R s).2.fail = true ∧ (E.read R s).1 = R) ∨
    ((E.read R s).2.fail = false ∧ s.fail = false ∧ ∃ blanks t, (∀ c ∈ blanks, Blank c) ∧ Text E (E.read R s).1 t ∧
      s.rest = blanks ++ t ++ (E.read R s).2.rest) := by
  cases h : (E.read R s).2.fail with
  | true => exact Or.inl ⟨rfl, (engineReads E).unchanged R s h⟩
  | false =>
    obtain ⟨h1, bl, ts, h2, h3, h4⟩ := (engineReads E).sound R s h
    exact Or.inr ⟨rfl, h1, bl, _, h2, ⟨ts, h3, rfl⟩, h4⟩

/-- Conversely every text for an object is accepted. -/
theorem C46_accepts (E : Engine) (R e : E.State) (t blanks rest : List Char) (ht : Text E e t) (hb : ∀ c ∈ blanks, Blank c) :
    E.read R { rest := blanks ++ t ++ rest } = (e, { rest := rest }) := by
  obtain ⟨ts, h1, rfl⟩ := ht
  exact (engineReads E).ok R e blanks ts rest hb h1

/-- If the input does not begin, after blanks, with a text for an object of the type, `failbit` is set and the object is
unchanged. -/
theorem C46_unchanged (E : Engine) (R : E.State) (s : In)
    (h : ¬ ∃ blanks t rest e, (∀ c ∈ blanks, Blank c) ∧ Text E e t ∧ s.rest = blanks ++ t ++ rest) :
    (E.read R s).2.fail = true ∧ (E.read R s).1 = R := by
  rcases C46_read E R s with h' | ⟨_, _, bl, t, h1, h2, h3⟩
  · exact h'
  · exact absurd ⟨bl, t, _, _, h1, h2, h3⟩ h

example : ¬ ∃ blanks t rest e, (∀ c ∈ blanks, Blank c) ∧ Text .minstd e t ∧
    "[minstd 5)]".toList = blanks ++ t ++ rest := by
  rintro ⟨bl, t, rest, e, h1, h2, h3⟩
  have := C46_accepts .minstd (⟨1⟩ : Minstd) e t bl rest h2 h1
  rw [← h3] at this
  have h : (Engine.minstd.read (⟨1⟩ : Minstd) { rest := "[minstd 5)]".toList }).2.fail = false := by rw [this]
  revert h; decide

/-- Truncated input: a part of the text that lacks its end is not accepted. -/
theorem C46_truncated (E : Engine) (R e : E.State) (t p q blanks : List Char) (ht : Text E e t) (hpq : t = p ++ q) (hq : q ≠ [])
    (hb : ∀ c ∈ blanks, Blank c) :
    (E.read R { rest := blanks ++ p }).2.fail = true ∧ (E.read R { rest := blanks ++ p }).1 = R := by
  obtain ⟨t', h1, h2⟩ := text_close ht
  have hp : ']' ∉ p := by
    intro hm
    rw [hpq] at h1
    obtain ⟨q', c, rfl⟩ : ∃ q' c, q = q' ++ [c] := ⟨q.dropLast, q.getLast hq, (List.dropLast_append_getLast hq).symm⟩
    rw [← List.append_assoc] at h1
    have := (List.append_inj' h1 rfl).1
    exact h2 (by rw [← this]; exact List.mem_append_left _ hm)
  refine C46_unchanged E R _ ?_
  rintro ⟨bl, u, rest, e', h3, h4, h5⟩
  obtain ⟨u', rfl, _⟩ := text_close h4
  have hm : ']' ∈ blanks ++ p := by
    have : ({ rest := blanks ++ p } : In).rest = blanks ++ p := rfl
    rw [← this, h5]; simp
  rcases List.mem_append.1 hm with hm | hm
  · exact absurd (hb _ hm) (by unfold Blank; decide)
  · exact hp hm

/-- The text of an engine of another type is not accepted. -/
theorem C46_other_engine (E E' : Engine) (hne : E ≠ E') (R : E.State) (e : E'.State) (t blanks rest : List Char)
    (ht : Text E' e t) (hb : ∀ c ∈ blanks, Blank c) :
    (E.read R { rest := blanks ++ t ++ rest }).2.fail = true ∧ (E.read R { rest := blanks ++ t ++ rest }).1 = R := by
  refine C46_unchanged E R _ ?_
  rintro ⟨bl, u, rest', e', h3, h4, h5⟩
  obtain ⟨k, rfl⟩ := text_open ht
  obtain ⟨k', rfl⟩ := text_open h4
  have h5 : blanks ++ '[' :: (E'.name ++ ' ' :: k ++ rest) = bl ++ '[' :: (E.name ++ ' ' :: k' ++ rest') := by
    simpa using h5
  have h6 := blanks_unique hb h3 h5
  rw [List.append_assoc, List.append_assoc, List.cons_append, List.cons_append] at h6
  exact hne (name_injective (names_unique (fun c hc => (name_close E' c hc).2) (fun c hc => (name_close E c hc).2) h6).symm)

/-- A stream that is not good is not read from. -/
theorem C46_bad_stream (E : Engine) (R : E.State) (s : In) (h : s.fail = true) :
    (E.read R s).2.fail = true ∧ (E.read R s).1 = R := by
  rcases C46_read E R s with h' | ⟨_, h1, _⟩
  · exact h'
  · rw [h] at h1; cases h1

/-- Wrong (values are not checked): a text with a negative position is accepted for a Mersenne twister, and the behaviour
of the engine read is undefined. -/
theorem C46_mt_wrong (R : Engine.mt19937.State) : ∃ t e, Engine.mt19937.read R { rest := t } = (e, { rest := [] }) ∧
    (MT.call e).1 = none := by
  let e : MT MT.mt19937 := ⟨-1, fun _ => 0⟩
  have he : Fits .mt19937 e := by
    intro fs hfs f hf v hv
    simp only [fields, List.mem_cons, List.not_mem_nil, or_false] at hfs
    rcases hfs with rfl | rfl
    · simp at hf
    · rcases List.mem_cons.1 hf with rfl | hf
      · cases hv
        decide
      · obtain ⟨i, rfl⟩ := (List.mem_ofFn' _ _).1 hf
        cases hv
  refine ⟨Engine.print 0 ' ' .mt19937 e, e, ?_, rfl⟩
  have := C45_round_trip .mt19937 e he R 0 (by omega) ' ' [] [] (by simp)
  simpa using this

/-- Wrong (values are not checked): the text `[minstd (0)]`, which no engine that was constructed or seeded writes, is
accepted, and the engine read returns 0, which is below `min()`, forever. -/
theorem C46_minstd_wrong (R : Engine.minstd.State) : ∃ e, Engine.minstd.read R { rest := "[minstd (0)]".toList } =
    (e, { rest := [] }) ∧ ∀ n : Nat, (Minstd.call ((fun x => (Minstd.call x).2)^[n] e)).1 = 0 := by
  refine ⟨(⟨0⟩ : Minstd), ?_, fun n => ?_⟩
  · have := C46_accepts .minstd R (⟨0⟩ : Minstd) "[minstd (0)]".toList [] [] ⟨[[['0']]], .cons (.cons (text_unsigned 0) .nil) .nil, rfl⟩
      (by simp)
    simpa using this
  · have : (fun x => (Minstd.call x).2)^[n] (⟨0⟩ : Minstd) = ⟨0⟩ := by
      induction n with
      | zero => rfl
      | succ n ih => rw [Function.iterate_succ_apply', ih]; decide
    rw [this]; decide

/-- Wrong (values are not checked): the same for `[xoshiro256plus (0 0 0 0)]`. -/
theorem C46_xoshiro_wrong (R : Engine.xoshiro256plus.State) :
    ∃ e, Engine.xoshiro256plus.read R { rest := "[xoshiro256plus (0 0 0 0)]".toList } = (e, { rest := [] }) ∧
    ∀ n : Nat, (Xoshiro.call ((fun x => (Xoshiro.call x).2)^[n] e)).1 = 0 := by
  refine ⟨(⟨0, 0, 0, 0⟩ : Xoshiro), ?_, fun n => ?_⟩
  · have := C46_accepts .xoshiro256plus R (⟨0, 0, 0, 0⟩ : Xoshiro) "[xoshiro256plus (0 0 0 0)]".toList [] []
      ⟨[[['0'], ['0'], ['0'], ['0']]], .cons (.cons (text_unsigned 0) (.cons (text_unsigned 0) (.cons (text_unsigned 0)
        (.cons (text_unsigned 0) .nil)))) .nil, rfl⟩ (by simp)
    simpa using this
  · have : (fun x => (Xoshiro.call x).2)^[n] (⟨0, 0, 0, 0⟩ : Xoshiro) = ⟨0, 0, 0, 0⟩ := by
      induction n with
      | zero => rfl
      | succ n ih => rw [Function.iterate_succ_apply', ih]; decide
    rw [this]; decide

/-- Wrong (signs): `-1` is accepted for an unsigned number and means 2^64 - 1. -/
theorem C46_sign_wrong (R : Engine.lcg64.State) :
    Engine.lcg64.read R { rest := "[lcg64 (+5 01) (-1)]".toList } =
      ((⟨⟨5#64, 1#64⟩, BitVec.allOnes 64⟩ : LCG64), { rest := [] }) := by
  have := C46_accepts .lcg64 R (⟨⟨5#64, 1#64⟩, BitVec.allOnes 64⟩ : LCG64) "[lcg64 (+5 01) (-1)]".toList [] []
    ⟨[[['+', '5'], ['0', '1']], [['-', '1']]], .cons (.cons ⟨['+'], ['5'], rfl, by simp, by decide, by decide,
        Or.inl ⟨Or.inr rfl, by decide⟩⟩ (.cons ⟨[], ['0', '1'], rfl, by simp, by decide, by decide, Or.inl ⟨Or.inl rfl, by decide⟩⟩ .nil))
      (.cons (.cons ⟨['-'], ['1'], rfl, by simp, by decide, by decide, Or.inr ⟨rfl, by decide⟩⟩ .nil) .nil), rfl⟩ (by simp)
  rw [List.nil_append, List.append_nil] at this
  exact this

end Trng
