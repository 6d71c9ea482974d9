import Verif.Proofs.DistChars

/-! C84: the text written for a distribution is read back.  C85: reading a distribution from arbitrary text. -/
namespace Trng
open Trng.DistText Trng.DistTextSpec Trng.StreamSpec
open Trng.Stream (In)
open Trng.Stream (delimC_ok delimStr_ok ignoreSpaces_ok blanks_unique text_unsigned reads_unsigned)

/-! ### C84 -/

/-- What is written is a text for parameters that differ from those of the object by at most one unit of the last decimal; and
for its own parameters, if these are literals with that many decimals.  Missing: fast_discrete_dist, see
`C84_fast_discrete_wrong`. -/
theorem C84_format_partial (d : Dist) (hd : d ≠ .fastDiscrete) (prec : ℕ)
    (hp : prec ≤ 22 ∧ (d = .bernoulli (.real .float) → prec ≤ 9)) (P : d.State) (hP : Fits d.layout P) (width : ℕ)
    (hw : width ≤ d.outName.length) (fill : Char) :
    ∃ Q, Text d.outName d.layout Q (d.print width fill prec P).1 ∧ Rel (ValNear (d.precision.getD prec)) d.layout P Q ∧
      (All (ValLiteral (d.precision.getD prec)) d.layout P ↔ Q = P) := by
  have hk := precision_ok d prec (bernoulli_prec hp)
  refine ⟨back (d.precision.getD prec) d.layout P, ⟨_, text_out (not_fast hd) hk hP, print_eq d hw fill prec P⟩, back_near hP,
    (back_iff hk hP).symm⟩

/-- Writing a distribution, to a stream without a field width, and reading it again into an object with whatever parameters
`R`, gives the same distribution and leaves what follows in the stream — if and only if its floating-point parameters are
literals with the printed number of decimals.  Missing: twosided_exponential_dist, fast_discrete_dist, infinite parameters and
parameters with more decimals, for all of which it is wrong, see below. -/
theorem C84_round_trip_partial (d : Dist) (hd : d ≠ .fastDiscrete) (hd' : ∀ F, d ≠ .twosidedExponential F) (prec : ℕ)
    (hp : prec ≤ 22 ∧ (d = .bernoulli (.real .float) → prec ≤ 9)) (P R : d.State) (hP : Fits d.layout P) (width : ℕ)
    (hw : width ≤ d.outName.length) (fill : Char) (blanks rest : List Char) (hb : ∀ c ∈ blanks, Blank c) :
    d.read R { rest := blanks ++ (d.print width fill prec P).1 ++ rest } = some (P, { rest := rest }) ↔
      All (ValLiteral (d.precision.getD prec)) d.layout P := by
  obtain ⟨Q, h1, _, h3⟩ := C84_format_partial d hd prec hp P hP width hw fill
  rw [outName_eq hd'] at h1
  rw [dist_ok d R Q _ blanks rest h1 hb, h3]
  exact ⟨fun h => (some_pair h).1, fun h => by rw [h]⟩

/-- In any case reading succeeds, and the parameters of the result differ from the original ones by at most one unit of the last
printed decimal.  Missing: as for `C84_round_trip_partial`. -/
theorem C84_near_partial (d : Dist) (hd : d ≠ .fastDiscrete) (hd' : ∀ F, d ≠ .twosidedExponential F) (prec : ℕ)
    (hp : prec ≤ 22 ∧ (d = .bernoulli (.real .float) → prec ≤ 9)) (P R : d.State) (hP : Fits d.layout P) (width : ℕ)
    (hw : width ≤ d.outName.length) (fill : Char) (blanks rest : List Char) (hb : ∀ c ∈ blanks, Blank c) :
    ∃ Q, d.read R { rest := blanks ++ (d.print width fill prec P).1 ++ rest } = some (Q, { rest := rest }) ∧
      Rel (ValNear (d.precision.getD prec)) d.layout P Q := by
  obtain ⟨Q, h1, h2, _⟩ := C84_format_partial d hd prec hp P hP width hw fill
  rw [outName_eq hd'] at h1
  exact ⟨Q, dist_ok d R Q _ blanks rest h1 hb, h2⟩

/-- The same for a `param_type` alone, which has no name (so that twosided_exponential_dist is included); no blanks are skipped. -/
theorem C84_param_round_trip_partial (d : Dist) (hd : d ≠ .fastDiscrete) (prec : ℕ)
    (hp : prec ≤ 22 ∧ (d = .bernoulli (.real .float) → prec ≤ 9)) (P R : d.State) (hP : Fits d.layout P) (width : ℕ)
    (hw : width ≤ 1) (fill : Char) (rest : List Char) :
    ∃ Q, d.readParam R { rest := (d.printParam width fill prec P).1 ++ rest } = some (Q, { rest := rest }) ∧
      Rel (ValNear (d.precision.getD prec)) d.layout P Q ∧ (All (ValLiteral (d.precision.getD prec)) d.layout P ↔ Q = P) := by
  have hk := precision_ok d prec (bernoulli_prec hp)
  have e : (d.printParam width fill prec P).1 = d.layout.out (d.precision.getD prec) P := by
    have : width - 1 = 0 := by omega
    simp only [Dist.printParam, this, List.replicate_zero, List.append_nil, List.take_append_drop]
  refine ⟨back (d.precision.getD prec) d.layout P, ?_, back_near hP, (back_iff hk hP).symm⟩
  rw [e]
  exact param_ok _ R _ _ rest (text_out (not_fast hd) hk hP)

/-- All floating-point numbers of absolute value one or more, and zero, are literals with the number of decimals that the
distributions write (except bernoulli_dist); for `double` all from 1/2 on. -/
theorem C84_literals (F : FloatType) (a : ℚ) (h : Value F a) (ha : a = 0 ∨ 1 ≤ a ∨ F = .double ∧ 1 / 2 ≤ a) :
    Literal F (F.digits10 + 1) a := by
  rcases ha with rfl | ha | ⟨rfl, ha⟩
  · exact ⟨0, by simp [round_zero]⟩
  · refine literal_of_le (digits_ok F) (t := 0) ?_ (.of_value h) (by simpa using ha)
    cases F <;> simp only [FloatType.digits10, FloatType.p] <;> norm_num
  · refine literal_of_le (digits_ok _) (t := -1) ?_ (.of_value h) (by norm_num at ha ⊢; exact ha)
    simp only [FloatType.digits10, FloatType.p]; norm_num

/-- The rounding in the definition of literals: the result is a number of the type (a very large one is not rounded to infinity)
and no other is nearer. -/
theorem C84_rounding (F : FloatType) (a : ℚ) (h : 0 ≤ a) :
    (F.round a < 2 ^ F.emax → Value F (F.round a)) ∧ ∀ b, Value F b → |F.round a - a| ≤ |b - a| := by
  obtain ⟨h1, h2⟩ := round_near F h
  refine ⟨fun hlt => ?_, fun b hb => h2 b (.of_value hb)⟩
  obtain ⟨m, e, h3, h4, h5⟩ := h1
  exact ⟨m, e, h3, h4, h5, hlt⟩

/-- A normal distribution with mean -3/2 and standard deviation 1/5 (as a `double`), and a discrete one. -/
example : Fits (Dist.normal .double).layout (normal .double (.fin true (3 / 2)) (.fin false (3602879701896397 / 2 ^ 54))) ∧
    Fits Dist.discrete.layout (discrete [.fin false 1, .fin false (5 / 2)]) := by
  have v : ∀ (m : ℕ) (e : ℕ) (a : ℚ), m < 2 ^ 53 → e ≤ 1074 → a = m / 2 ^ e → a < 2 → Value .double a := by
    intro m e a hm he ha h2
    refine ⟨m, -e, hm, by simp only [FloatType.emin]; omega, by rw [ha, zpow_neg, zpow_natCast, div_eq_mul_inv], ?_⟩
    refine lt_of_lt_of_le h2 ?_
    calc (2 : ℚ) = 2 ^ (1 : ℤ) := by norm_num
      _ ≤ 2 ^ FloatType.double.emax := zpow_le_zpow_right₀ (by norm_num) (by simp [FloatType.emax])
  have v' : Value .double (5 / 2) := by
    refine ⟨5, -1, by norm_num [FloatType.p], by norm_num [FloatType.emin], by norm_num, ?_⟩
    calc (5 / 2 : ℚ) < 2 ^ (2 : ℤ) := by norm_num
      _ ≤ 2 ^ FloatType.double.emax := zpow_le_zpow_right₀ (by norm_num) (by simp [FloatType.emax])
  refine ⟨⟨trivial, ⟨_, _, rfl, v 3 1 _ (by norm_num) (by norm_num) (by norm_num) (by norm_num)⟩,
    ⟨_, _, rfl, v 3602879701896397 54 _ (by norm_num) (by norm_num) (by norm_num) (by norm_num)⟩, trivial⟩,
    ⟨rfl, by decide⟩, fun x hx => ?_⟩
  rcases List.mem_cons.1 hx with rfl | hx
  · exact ⟨_, _, rfl, v 1 0 _ (by norm_num) (by norm_num) (by norm_num) (by norm_num)⟩
  · rcases List.mem_cons.1 hx with rfl | hx
    · exact ⟨_, _, rfl, v'⟩
    · simp at hx

/-- Wrong: twosided_exponential_dist writes the name of exponential_dist and cannot read what it has written: the stream fails,
the object is unchanged.  An exponential_dist writes exactly the same text, so this is read as an exponential distribution. -/
theorem C84_twosided_exponential_wrong (F : FloatType) (P R : (Dist.twosidedExponential F).State) (width : ℕ) (fill : Char)
    (hw : width ≤ 13) (prec : ℕ) (rest : List Char) :
    (∃ s', (Dist.twosidedExponential F).read R { rest := ((Dist.twosidedExponential F).print width fill prec P).1 ++ rest } =
      some (R, s') ∧ s'.fail = true) ∧
    (Dist.twosidedExponential F).print width fill prec P = (Dist.exponential F).print width fill prec P := by
  refine ⟨unchanged_of_not ⟨_, rfl⟩ R _ ?_, rfl⟩
  rintro - ⟨bl, t, rest', v, h1, ⟨t', h2, rfl⟩, h3⟩
  obtain ⟨k, rfl⟩ := param_open h2
  rw [print_eq _ (by simp only [Dist.outName]; exact hw)] at h3
  obtain ⟨cs, hcs⟩ := outName_open (.twosidedExponential F)
  obtain ⟨cs', hcs'⟩ := inName_open (.twosidedExponential F)
  have h4 := same_name (bl := []) (bl' := bl) (fun c hc => (outName_chars (.twosidedExponential F) c hc).2)
    (fun c hc => (inName_chars (.twosidedExponential F) c hc).2) hcs hcs' (by simp) h1
    (u := outTuple ((Dist.twosidedExponential F).precision.getD prec) _ P ++ ')' :: ']' :: rest) (u' := k ++ ']' :: rest')
    (by
      have : (Dist.twosidedExponential F).layout.out ((Dist.twosidedExponential F).precision.getD prec) P =
        ['('] ++ outTuple ((Dist.twosidedExponential F).precision.getD prec) _ P ++ [')'] := rfl
      rw [this] at h3
      simpa using h3)
  revert h4; simp only [Dist.inName, Dist.outName]; decide

/-- Wrong: a fast_discrete_dist made from one or more weights writes 0 as their number, and cannot read what it has written. -/
theorem C84_fast_discrete_wrong (v : FVal) (l : List FVal) (R : Dist.fastDiscrete.State) (width : ℕ) (hw : width ≤ 15)
    (fill : Char) (prec : ℕ) (rest : List Char) : ∃ s', Dist.fastDiscrete.read R
      { rest := (Dist.fastDiscrete.print width fill prec (fastDiscrete (v :: l))).1 ++ rest } = some (R, s') ∧ s'.fail = true := by
  rw [print_eq _ (by simp only [Dist.outName]; exact hw)]
  obtain ⟨cs, hcs⟩ := inName_open .fastDiscrete
  obtain ⟨c, k, hk, hc⟩ := outF_head (Dist.fastDiscrete.precision.getD prec) v
  have e : Dist.fastDiscrete.outName.toList ++ Dist.fastDiscrete.layout.out (Dist.fastDiscrete.precision.getD prec)
      (fastDiscrete (v :: l)) ++ [']'] ++ rest = [] ++ '[' :: (cs ++ ('(' :: '0' :: ' ' :: c :: (k ++
        Trng.Stream.tail (l.map (outF (Dist.fastDiscrete.precision.getD prec))) ++ ')' :: ']' :: rest))) := by
    have h1 : Dist.fastDiscrete.layout.out (Dist.fastDiscrete.precision.getD prec) (fastDiscrete (v :: l)) =
      ['('] ++ ['0'] ++ [' '] ++ Trng.Stream.outSep (outF (Dist.fastDiscrete.precision.getD prec)) (v :: l) ++ [')'] := rfl
    have h2 : Dist.fastDiscrete.outName.toList = '[' :: cs := hcs
    rw [h1, h2, outSep_join, List.map_cons, Trng.Stream.join_cons, hk]
    simp
  rw [e, Dist.read, ignoreSpaces_ok [] (by simp) '[' (by unfold Blank; decide), ← List.cons_append, ← hcs, delimStr_ok]
  obtain ⟨s', h1, h2⟩ := read_zero Dist.fastDiscrete.layout.default c hc (k ++
        Trng.Stream.tail (l.map (outF (Dist.fastDiscrete.precision.getD prec))) ++ ')' :: ']' :: rest)
  have h1' : Dist.fastDiscrete.layout.read Dist.fastDiscrete.layout.default _ = _ := h1
  have h3 : (Trng.Stream.In.delimC ']' s').fail = true := by
    by_contra h
    have := (Trng.Stream.delimC_sound (Bool.eq_false_iff.2 h)).1
    rw [h2] at this; cases this
  rw [h1']
  refine ⟨_, ?_, h3⟩
  simp only [h3, if_true]

/-- Wrong: a small parameter comes back as zero.  For float_t `double` this concerns all values below 5e-17. -/
theorem C84_small_wrong (F : FloatType) (neg : Bool) (a : ℚ) (h0 : Value F a) (ha : a < 1 / 10 ^ (F.digits10 + 1) / 2)
    (R : (Dist.exponential F).State) (prec : ℕ) (rest : List Char) :
    (Dist.exponential F).read R
      { rest := ((Dist.exponential F).print 0 ' ' prec (exponential F (.fin neg a))).1 ++ rest } =
        some ((exponential F (.fin neg 0)), { rest := rest }) := by
  have hv := Val'.of_value h0
  have h := text_fixed (F := F) (k := F.digits10 + 1) (neg := neg) hv.nonneg
    (by rw [shown_small hv.nonneg ha, round_zero]; positivity)
  rw [shown_small hv.nonneg ha, round_zero] at h
  have := dist_ok (.exponential F) R (exponential F (.fin neg 0)) ((Dist.exponential F).print 0 ' ' prec (exponential F (.fin neg a))).1
    [] rest ⟨_, ⟨[_], ⟨_, _, rfl, h, rfl⟩, rfl⟩, print_eq (.exponential F) (Nat.zero_le _) _ _ _⟩ (by simp)
  simpa using this

/-- Such parameters exist. -/
example : Value .double (2 ^ (-60 : ℤ)) ∧ 0 < (2 : ℚ) ^ (-60 : ℤ) ∧
    (2 : ℚ) ^ (-60 : ℤ) < 1 / 10 ^ (FloatType.double.digits10 + 1) / 2 := by
  refine ⟨⟨1, -60, by norm_num [FloatType.p], by norm_num [FloatType.emin], by norm_num, ?_⟩, by positivity, ?_⟩
  · exact zpow_lt_zpow_right₀ (by norm_num) (by norm_num [FloatType.emax])
  · simp only [FloatType.digits10]; norm_num

/-- Wrong: two different `double` parameters, 1/4 + 2^-54 and 1/4 + 2^-53, have the same text. -/
theorem C84_digits_wrong (width : ℕ) (fill : Char) (prec : ℕ) :
    let a : ℚ := 1 / 4 + 1 / 2 ^ 54
    let b : ℚ := 1 / 4 + 1 / 2 ^ 53
    Value .double a ∧ Value .double b ∧ a ≠ b ∧
    (Dist.exponential .double).print width fill prec (exponential .double (.fin false a)) =
      (Dist.exponential .double).print width fill prec (exponential .double (.fin false b)) := by
  intro a b
  have ha : a = (4503599627370497 : ℕ) * 2 ^ (-54 : ℤ) := by norm_num [a]
  have hb : b = (2251799813685249 : ℕ) * 2 ^ (-53 : ℤ) := by norm_num [b]
  have big : (1 : ℚ) ≤ 2 ^ FloatType.double.emax := one_le_zpow₀ (by norm_num) (by simp [FloatType.emax])
  refine ⟨⟨_, _, by norm_num [FloatType.p], by norm_num [FloatType.emin], ha, lt_of_lt_of_le (by norm_num [a]) big⟩,
    ⟨_, _, by norm_num [FloatType.p], by norm_num [FloatType.emin], hb, lt_of_lt_of_le (by norm_num [b]) big⟩, by norm_num [a, b], ?_⟩
  have h : FP.rneInt (a * 10 ^ 16) = FP.rneInt (b * 10 ^ 16) := by decide +kernel
  have h' : outF 16 (.fin false a) = outF 16 (.fin false b) := by simp only [outF, fixed, h]
  have e : ∀ v, (Dist.exponential .double).layout.out 16 (exponential .double v) = ['('] ++ (outF 16 v ++ []) ++ [')'] := fun _ => rfl
  simp only [Dist.print]
  show (_ ++ (Dist.exponential .double).layout.out 16 _ ++ _, _) = (_ ++ (Dist.exponential .double).layout.out 16 _ ++ _, _)
  rw [e, e, h']
  rfl

/-- Wrong: a truncated normal distribution that is not truncated from above (`b` infinite; `update_Phi` provides for that) can be
written, but what is written cannot be read; the object is unchanged. -/
theorem C84_infinite_wrong (F : FloatType) (mu sigma a : FVal) (R : (Dist.truncatedNormal F).State) (width : ℕ) (hw : width ≤ 18)
    (fill : Char) (prec : ℕ) (rest : List Char) :
    ∃ s', (Dist.truncatedNormal F).read R
      { rest := ((Dist.truncatedNormal F).print width fill prec
        (truncatedNormal F mu sigma a (.inf false))).1 ++ rest } = some (R, s') ∧
      s'.fail = true := by
  refine unchanged_of_not ⟨_, rfl⟩ R _ ?_
  rintro - ⟨bl, t, rest', v, h1, h2, h3⟩
  rw [print_eq _ (by simp only [Dist.outName]; exact hw)] at h3
  set P := truncatedNormal F mu sigma a (.inf false)
  set k := (Dist.truncatedNormal F).precision.getD prec
  have e : (Dist.truncatedNormal F).layout.out k P = ['('] ++ (outF k mu ++ ' ' :: (outF k sigma ++ ' ' :: (outF k a ++ ' ' ::
    (outF k (.inf false) ++ [])))) ++ [')'] := rfl
  have h4 := same_text (d := .truncatedNormal F) (bl := []) (by simp) h1 h2 (u := (Dist.truncatedNormal F).layout.out k P) (k := rest)
    (by
      intro c hc
      rw [e] at hc
      simp only [List.mem_append, List.mem_cons, List.not_mem_nil, or_false] at hc
      rcases hc with (rfl | hc | rfl | hc | rfl | hc | rfl | hc) | rfl
      all_goals first | decide | exact outF_chars _ _ c hc)
    h3
  have h5 := param_chars h4 'f' (by rw [e]; simp [outF])
  exact h5.ne.2.1 rfl

/-- Wrong: writing a distribution changes the precision of the stream for good, and the text of a bernoulli_dist depends on it:
with the default precision 6 a parameter p = 1e-7 is written as zero, after a normal_dist has been written it is not. -/
theorem C84_precision_wrong (F : FloatType) (P : (Dist.normal F).State) (width prec : ℕ) (fill : Char) :
    ((Dist.normal F).print width fill prec P).2 = F.digits10 + 1 ∧
    ((Dist.bernoulli .int).print 0 ' ' 6 (bernoulli (.fin false (1 / 10 ^ 7)) 1 0)).1 =
      "[bernoulli (0.000000 1 0)]".toList ∧
    ((Dist.bernoulli .int).print 0 ' ' 16 (bernoulli (.fin false (1 / 10 ^ 7)) 1 0)).1 =
      "[bernoulli (0.0000001000000000 1 0)]".toList := by
  refine ⟨rfl, ?_, ?_⟩
  · simp only [Dist.print, Dist.outName, Dist.precision, Option.getD_none]
    decide +kernel
  · simp only [Dist.print, Dist.outName, Dist.precision, Option.getD_none]
    decide +kernel

/-- Wrong: if the caller has set a field width larger than the name, the text is padded and cannot be read. -/
theorem C84_width_wrong (d : Dist) (hd : Numbers d) (hd' : ∀ F, d ≠ .twosidedExponential F) (P R : d.State) (width : ℕ)
    (hw : d.outName.length < width) (fill : Char) (hf : fill ≠ '(') (prec : ℕ) (rest : List Char) :
    ∃ s', d.read R { rest := (d.print width fill prec P).1 ++ rest } = some (R, s') ∧ s'.fail = true := by
  refine unchanged_of_not hd R _ ?_
  rintro - ⟨bl, t, rest', v, h1, ⟨t', h2, rfl⟩, h3⟩
  obtain ⟨k, rfl⟩ := param_open h2
  obtain ⟨n, hn⟩ : ∃ n, width - d.outName.toList.length = n + 1 := ⟨width - d.outName.length - 1, by
    rw [String.length_toList]; omega⟩
  simp only [Dist.print, hn, List.replicate_succ] at h3
  rw [outName_eq hd'] at h3
  obtain ⟨cs, hcs⟩ := inName_open d
  rw [hcs] at h3
  have h4 := blanks_unique (bl := []) (by simp) h1 (k := cs ++ (fill :: (List.replicate n fill ++ (d.layout.out
    (d.precision.getD prec) P ++ ']' :: rest)))) (k' := cs ++ '(' :: (k ++ ']' :: rest')) (by simpa using h3)
  have h5 := List.append_cancel_left h4
  simp only [List.cons.injEq] at h5
  exact hf h5.1

example : Numbers .poisson ∧ (∀ F, Dist.poisson ≠ .twosidedExponential F) ∧ Dist.poisson.outName.length < 20 :=
  ⟨⟨_, rfl⟩, by simp, by decide⟩

/-! ### C85 -/

/-- Reading a distribution from any stream in any state either sets `failbit` and leaves the object as it was, or consumes blanks
and a complete text for the object it gives, and never has undefined behaviour.  Missing: the distributions with weights or a
matrix, see `C85_undefined_wrong`; for these it holds if the behaviour is defined, see `C85_defined_partial`. -/
theorem C85_read_partial (d : Dist) (hd : Numbers d) (R : d.State) (s : In) : ∃ v s', d.read R s = some (v, s') ∧
    (s'.fail = true ∧ v = R ∨
     s'.fail = false ∧ s.fail = false ∧ ∃ blanks t, (∀ c ∈ blanks, Blank c) ∧ Text d.inName d.layout v t ∧
       s.rest = blanks ++ t ++ s'.rest) := by
  obtain ⟨ts, hd⟩ := hd
  obtain ⟨⟨v, s'⟩, he⟩ := Option.isSome_iff_exists.1 (dist_defined hd R s)
  refine ⟨v, s', he, ?_⟩
  cases hf : s'.fail with
  | true => exact Or.inl ⟨rfl, dist_unchanged d R v s s' he hf⟩
  | false =>
    obtain ⟨h1, bl, t, h2, h3, h4⟩ := dist_sound d R v s s' he hf
    exact Or.inr ⟨rfl, h1, bl, t, h2, h3, h4⟩

/-- For all distributions, as long as the behaviour is defined. -/
theorem C85_defined_partial (d : Dist) (R v : d.State) (s s' : In) (h : d.read R s = some (v, s')) :
    s'.fail = true ∧ v = R ∨
     s'.fail = false ∧ s.fail = false ∧ ∃ blanks t, (∀ c ∈ blanks, Blank c) ∧ Text d.inName d.layout v t ∧
       s.rest = blanks ++ t ++ s'.rest := by
  cases hf : s'.fail with
  | true => exact Or.inl ⟨rfl, dist_unchanged d R v s s' h hf⟩
  | false =>
    obtain ⟨h1, bl, t, h2, h3, h4⟩ := dist_sound d R v s s' h hf
    exact Or.inr ⟨rfl, h1, bl, t, h2, h3, h4⟩

/-- The same for a `param_type` alone; the behaviour is defined for all distributions with numbers only. -/
theorem C85_param_partial (d : Dist) (R : d.State) (s : In) :
    (Numbers d → (d.readParam R s).isSome) ∧ ∀ v s', d.readParam R s = some (v, s') →
      (s'.fail = true ∧ v = R ∨
       s'.fail = false ∧ s.fail = false ∧ ∃ t, ParamText d.layout v t ∧ s.rest = t ++ s'.rest) := by
  refine ⟨?_, fun v s' h => ?_⟩
  · rintro ⟨ts, hd⟩
    exact param_defined hd R s
  · cases hf : s'.fail with
    | true => exact Or.inl ⟨rfl, param_unchanged _ R v s s' h hf⟩
    | false =>
      obtain ⟨h1, t, h2, h3⟩ := param_sound _ R v s s' h hf
      exact Or.inr ⟨rfl, h1, t, h2, h3⟩

/-- Conversely every text is accepted, for all distributions. -/
theorem C85_accepts (d : Dist) (R v : d.State) (t blanks rest : List Char) (ht : Text d.inName d.layout v t)
    (hb : ∀ c ∈ blanks, Blank c) : d.read R { rest := blanks ++ t ++ rest } = some (v, { rest := rest }) :=
  dist_ok d R v t blanks rest ht hb

example : Text Dist.snedecorF.inName Dist.snedecorF.layout (snedecorF 3 (-4)) "[snedecor_f (+3 -04)]".toList := by
  have h3 : Field.Text (.int 3) ['+', '3'] :=
    ⟨['+'], ['3'], by decide, by decide, by decide, by norm_num, by norm_num, Or.inl ⟨by simp, by decide⟩⟩
  have h4 : Field.Text (.int (-4)) ['-', '0', '4'] :=
    ⟨['-'], ['0', '4'], by decide, by decide, by decide, by norm_num, by norm_num, Or.inr ⟨rfl, by decide⟩⟩
  exact ⟨"(+3 -04)".toList, ⟨[_, _], ⟨_, _, rfl, h3, _, _, rfl, h4, rfl⟩, by decide⟩, by simp only [Dist.inName]; decide⟩

/-- Truncated input: a part of the text that lacks its end is not accepted. -/
theorem C85_truncated (d : Dist) (hd : Numbers d) (R v : d.State) (t p q blanks : List Char) (ht : Text d.inName d.layout v t)
    (hpq : t = p ++ q) (hq : q ≠ []) (hb : ∀ c ∈ blanks, Blank c) :
    ∃ s', d.read R { rest := blanks ++ p } = some (R, s') ∧ s'.fail = true := by
  obtain ⟨t', h1, h2⟩ := text_close ht
  have hp : ']' ∉ p := by
    intro hm
    rw [hpq] at h1
    obtain ⟨q', c, rfl⟩ : ∃ q' c, q = q' ++ [c] := ⟨q.dropLast, q.getLast hq, (List.dropLast_append_getLast hq).symm⟩
    rw [← List.append_assoc] at h1
    have := (List.append_inj' h1 rfl).1
    exact h2 (by rw [← this]; exact List.mem_append_left _ hm)
  refine unchanged_of_not hd R _ ?_
  rintro - ⟨bl, u, rest, e', h3, h4, h5⟩
  obtain ⟨u', rfl, _⟩ := text_close h4
  have hm : ']' ∈ blanks ++ p := by
    have : ({ rest := blanks ++ p } : In).rest = blanks ++ p := rfl
    rw [← this, h5]; simp
  rcases List.mem_append.1 hm with hm | hm
  · exact absurd (hb _ hm) (by unfold Blank; decide)
  · exact hp hm

/-- The text of a distribution with another name is not accepted. -/
theorem C85_other (d d' : Dist) (hd : Numbers d) (hne : d.inName ≠ d'.inName) (R : d.State) (v : d'.State)
    (t blanks rest : List Char) (ht : Text d'.inName d'.layout v t) (hb : ∀ c ∈ blanks, Blank c) :
    ∃ s', d.read R { rest := blanks ++ t ++ rest } = some (R, s') ∧ s'.fail = true := by
  refine unchanged_of_not hd R _ ?_
  rintro - ⟨bl, u, rest', e', h3, ⟨u', h4, rfl⟩, h5⟩
  obtain ⟨t', h1, rfl⟩ := ht
  obtain ⟨k, rfl⟩ := param_open h1
  obtain ⟨k', rfl⟩ := param_open h4
  obtain ⟨cs, hcs⟩ := inName_open d'
  obtain ⟨cs', hcs'⟩ := inName_open d
  have h6 := same_name (fun c hc => (inName_chars d' c hc).2) (fun c hc => (inName_chars d c hc).2) hcs hcs' hb h3
    (u := k ++ ']' :: rest) (u' := k' ++ ']' :: rest') (by simpa using h5)
  exact hne (String.toList_injective h6).symm

example : Dist.uniform01.inName ≠ (Dist.uniform .double).inName := by decide

/-- From a stream in a failed state nothing is read. -/
theorem C85_bad_stream (d : Dist) (hd : Numbers d) (R : d.State) (s : In) (h : s.fail = true) :
    ∃ s', d.read R s = some (R, s') ∧ s'.fail = true :=
  unchanged_of_not hd R s fun h' => by rw [h] at h'; cases h'

/-- Wrong: reading a discrete_dist, a fast_discrete_dist or a correlated_normal_dist has undefined behaviour — an uninitialized
variable is used as number of weights, or dimension — whenever the input does not begin, after blanks, with the name and a
parenthesis; for example at the end of a file, or if the stream has failed before. -/
theorem C85_undefined_wrong (d : Dist) (hd : ¬ Numbers d) (R : d.State) (s : In)
    (h : s.fail = true ∨ ¬ ∃ blanks rest, (∀ c ∈ blanks, Blank c) ∧ s.rest = blanks ++ d.inName.toList ++ '(' :: rest) :
    d.read R s = none := read_undefined hd R s h

example (F : FloatType) : ¬ Numbers .discrete ∧ ¬ Numbers .fastDiscrete ∧ ¬ Numbers (.correlatedNormal F) :=
  ⟨fun ⟨_, h⟩ => (by cases h), fun ⟨_, h⟩ => (by cases h), fun ⟨_, h⟩ => (by cases h)⟩

/-- Wrong: as `d * d` is computed modulo 2^32, a correlated_normal_dist of dimension 65536 without any elements is accepted. -/
theorem C85_dimension_wrong (F : FloatType) (R : (Dist.correlatedNormal F).State) :
    (Dist.correlatedNormal F).read R { rest := "[correlated_normal (65536)]".toList } =
      some ((correlatedNormal F 65536 []), { rest := [] }) := by
  have := C85_accepts (.correlatedNormal F) R (correlatedNormal F 65536 []) "[correlated_normal (65536)]".toList [] []
    ⟨"(65536)".toList, ⟨Trng.Stream.outU (BitVec.ofNat 32 65536), [], text_unsigned (BitVec.ofNat 32 65536),
      (by norm_num : 65536 < 2 ^ 32), (by norm_num : 0 = 65536 * 65536 % 2 ^ 32), .nil, by decide⟩,
      by simp only [Dist.inName]; decide⟩ (by simp)
  simpa using this

/-- Wrong: the parameters are not checked: any two integers are accepted as the bounds of a uniform_int_dist, in any order. -/
theorem C85_unchecked_wrong (a b : ℤ) (ha : -2 ^ 31 ≤ a ∧ a < 2 ^ 31) (hb : -2 ^ 31 ≤ b ∧ b < 2 ^ 31) (R : Dist.uniformInt.State) :
    Dist.uniformInt.read R { rest := (Dist.uniformInt.print 0 ' ' 6 (uniformInt a b)).1 } =
      some ((uniformInt a b), { rest := [] }) := by
  have := (C84_round_trip_partial .uniformInt (by simp) (by simp) 6 (by simp) (uniformInt a b) R
    ⟨trivial, ha, hb, trivial⟩ 0 (by omega) ' ' [] [] (by simp)).2 ⟨trivial, trivial, trivial⟩
  simpa using this

end Trng
