import Verif.Proofs.DistText

namespace Trng.DistText
open Trng.DistTextSpec Trng.Stream Trng.Stream.In Trng.StreamSpec Trng.Spec

theorem stop_sp : Stop ' ' := Or.inl rfl
theorem stop_cl : Stop ')' := Or.inr rfl

theorem reads_val (T : Ty) : ReadsB (ValText T) T.rd := by
  cases T with
  | int => exact .of_reads reads_int
  | unsigned w => exact .of_reads (reads_unsigned w)
  | real F => exact reads_real F

/-! ### Tuples -/

theorem readTuple_ok {Ts : List Ty} {v : Tuple Ts} {ts} (h : TupleTexts Ts v ts) {c : Char} (hc : Stop c) (k : List Char) :
    readTuple Ts ⟨join ts ++ c :: k, false, false⟩ = (v, ⟨c :: k, false, false⟩) := by
  induction Ts generalizing ts with
  | nil => rw [TupleTexts] at h; subst h; rfl
  | cons T Ts ih =>
    obtain ⟨t, ts', rfl, h1, h2⟩ := h
    have ih := ih h2
    cases Ts with
    | nil =>
      have : ts' = [] := h2
      subst this
      rw [readTuple]
      simp only [join_cons, tail_nil, List.append_nil, (reads_val T).ok _ _ _ _ h1 hc, if_true]
      rfl
    | cons T' Ts' =>
      obtain ⟨t', ts'', rfl, _, _⟩ := h2
      rw [join_cons] at ih
      simp only [join_cons, tail_cons, List.append_assoc, List.cons_append] at ih ⊢
      rw [readTuple]
      simp only [(reads_val T).ok _ _ _ _ h1 stop_sp, List.cons_ne_nil, if_false, delimC_ok]
      rw [ih]
      rfl

theorem readTuple_sound (Ts : List Ty) (s : In) (hf : (readTuple Ts s).2.fail = false) : s.fail = false ∧
    ∃ ts, TupleTexts Ts (readTuple Ts s).1 ts ∧ s.rest = join ts ++ (readTuple Ts s).2.rest := by
  induction Ts generalizing s with
  | nil => exact ⟨hf, [], rfl, rfl⟩
  | cons T Ts ih =>
    rw [readTuple] at hf ⊢
    simp only at hf ⊢
    obtain ⟨i1, ts, i3, i4⟩ := ih _ hf
    by_cases hm : Ts = []
    · subst hm
      have : ts = [] := i3
      subst this
      simp only [if_true] at i1 i3 i4 ⊢
      obtain ⟨b1, t, b2, b3⟩ := (reads_val T).sound _ i1
      refine ⟨b1, [t], ⟨t, [], rfl, b2, i3⟩, ?_⟩
      rw [b3, i4]
      simp [join_cons]
    · simp only [hm, if_false] at i1 i3 i4 ⊢
      obtain ⟨a1, a2⟩ := delimC_sound i1
      obtain ⟨b1, t, b2, b3⟩ := (reads_val T).sound _ a1
      refine ⟨b1, t :: ts, ⟨t, ts, rfl, b2, i3⟩, ?_⟩
      rw [b3, a2, i4]
      cases Ts with
      | nil => exact absurd rfl hm
      | cons T' Ts' =>
        obtain ⟨t', ts', rfl, _⟩ := i3
        simp [join_cons]

/-! ### Loops -/

section
variable {β : Type} {T : β → List Char → Prop} {rd : In → β × In}

theorem sepLoop_okB (h : ReadsB T rd) {l : List β} {ts} (hl : List.Forall₂ T l ts) {c : Char} (hc : Stop c)
    (k : List Char) :
    sepLoop rd l.length ⟨join ts ++ c :: k, false, false⟩ = (l, ⟨c :: k, false, false⟩) := by
  induction hl with
  | nil => rfl
  | @cons v t l ts hv hl ih =>
    rw [List.length_cons, sepLoop]
    cases hl with
    | nil =>
      simp only [join_cons, tail_nil, List.append_nil, h.ok _ _ _ _ hv hc, List.length_nil, lt_irrefl, if_false]
      rfl
    | @cons v' t' l ts hv' hl =>
      rw [join_cons] at ih
      simp only [join_cons, tail_cons, List.append_assoc, List.cons_append] at ih ⊢
      simp only [h.ok _ _ _ _ hv stop_sp, List.length_cons, Nat.succ_pos', if_true, delimC_ok]
      rw [List.length_cons] at ih
      rw [ih]

theorem sepLoop_soundB (h : ReadsB T rd) (m : Nat) (s : In) (hf : (sepLoop rd m s).2.fail = false) :
    s.fail = false ∧ (sepLoop rd m s).1.length = m ∧
    ∃ ts, List.Forall₂ T (sepLoop rd m s).1 ts ∧ s.rest = join ts ++ (sepLoop rd m s).2.rest := by
  induction m generalizing s with
  | zero => exact ⟨hf, rfl, [], .nil, rfl⟩
  | succ m ih =>
    rw [sepLoop] at hf ⊢
    simp only at hf ⊢
    obtain ⟨i1, i2, ts, i3, i4⟩ := ih _ hf
    by_cases hm : 0 < m
    · simp only [hm, if_true] at i1 i2 i3 i4 ⊢
      obtain ⟨a1, a2⟩ := delimC_sound i1
      obtain ⟨b1, t, b2, b3⟩ := h.sound _ a1
      refine ⟨b1, by rw [List.length_cons, i2], t :: ts, .cons b2 i3, ?_⟩
      rw [b3, a2, i4]
      have hl := i3.length_eq.symm.trans i2
      cases ts with
      | nil => simp at hl; omega
      | cons => simp [join_cons]
    · simp only [hm, if_false] at i1 i2 i3 i4 ⊢
      obtain ⟨b1, t, b2, b3⟩ := h.sound _ i1
      refine ⟨b1, by rw [List.length_cons, i2], t :: ts, .cons b2 i3, ?_⟩
      rw [b3, i4]
      have hl := i3.length_eq.symm.trans i2
      cases ts with
      | nil => simp [join_cons]
      | cons => simp at hl; omega

theorem preLoop_okB (h : ReadsB T rd) {l : List β} {ts} (hl : List.Forall₂ T l ts) {c : Char} (hc : Stop c)
    (k : List Char) :
    preLoop rd l.length ⟨tail ts ++ c :: k, false, false⟩ = (l, ⟨c :: k, false, false⟩) := by
  induction hl with
  | nil => rfl
  | @cons v t l ts hv hl ih =>
    rw [List.length_cons, preLoop]
    simp only [tail_cons, List.cons_append, delimC_ok, List.append_assoc]
    obtain ⟨x, y, hx, e⟩ : ∃ x y, Stop x ∧ tail ts ++ c :: k = x :: y := by
      cases hl with
      | nil => exact ⟨c, k, hc, rfl⟩
      | cons => exact ⟨' ', _, stop_sp, by rw [tail_cons]; rfl⟩
    rw [e] at ih ⊢
    rw [h.ok _ _ _ _ hv hx, ih]

theorem preLoop_soundB (h : ReadsB T rd) (m : Nat) (s : In) (hf : (preLoop rd m s).2.fail = false) :
    s.fail = false ∧ (preLoop rd m s).1.length = m ∧
    ∃ ts, List.Forall₂ T (preLoop rd m s).1 ts ∧ s.rest = tail ts ++ (preLoop rd m s).2.rest := by
  induction m generalizing s with
  | zero => exact ⟨hf, rfl, [], .nil, rfl⟩
  | succ m ih =>
    rw [preLoop] at hf ⊢
    simp only at hf ⊢
    obtain ⟨i1, i2, ts, i3, i4⟩ := ih _ hf
    obtain ⟨b1, t, b2, b3⟩ := h.sound _ i1
    obtain ⟨a1, a2⟩ := delimC_sound b1
    refine ⟨a1, by rw [List.length_cons, i2], t :: ts, .cons b2 i3, ?_⟩
    rw [a2, b3, i4]; simp
end

theorem matrixLoop_eq (F : FloatType) (m : ℕ) (s : In) : matrixLoop F m s = preLoop (readF F) m s := by
  induction m generalizing s with
  | zero => rfl
  | succ m ih => simp only [matrixLoop, preLoop, ih]

theorem readF_good {F : FloatType} {s : In} (h : (readF F s).2.fail = false) : s.good = true := by
  by_contra hc
  rw [readF, if_neg hc] at h
  cases h

theorem weightLoop_ok (m : ℕ) (p : Option FVal) (s : In) (h : (sepLoop (readF .double) m s).2.fail = false) :
    weightLoop m p s = some (sepLoop (readF .double) m s) := by
  induction m generalizing p s with
  | zero => rfl
  | succ m ih =>
    rw [sepLoop] at h ⊢
    rw [weightLoop]
    simp only at h ⊢
    have hs := (sepLoop_soundB (reads_real .double) _ _ h).1
    have hx : (readF .double s).2.fail = false := by
      by_cases hm : 0 < m
      · rw [if_pos hm] at hs; exact (delimC_sound hs).1
      · rwa [if_neg hm] at hs
    rw [if_pos (readF_good hx)]
    simp only [ih _ _ h, Option.map_some]

theorem weightLoop_sound {m : ℕ} {p : Option FVal} {s : In} {x : List FVal × In} (h : weightLoop m p s = some x) :
    x.2 = (sepLoop (readF .double) m s).2 := by
  induction m generalizing p s x with
  | zero => simp only [weightLoop, Option.some.injEq] at h; rw [← h]; rfl
  | succ m ih =>
    rw [weightLoop] at h
    rw [sepLoop]
    simp only at h ⊢
    split at h
    · cases h
    · obtain ⟨y, hy, rfl⟩ := Option.map_eq_some_iff.1 h
      show y.2 = _
      exact ih hy

/-! ### Parameters -/

theorem some_pair {α β : Type} {a b : α} {c d : β} (h : some (a, c) = some (b, d)) : a = b ∧ c = d := by
  simpa using h

theorem delimC_good {d : Char} {s : In} (h : (delimC d s).fail = false) : (delimC d s).good = true := by
  obtain ⟨r, e, f⟩ := s
  cases e <;> cases f <;> cases r with
  | nil => simp [delimC, getc, good, setFail] at h
  | cons c r =>
    by_cases hc : c = d
    · simp_all [delimC, getc, good, setFail]
    · simp [delimC, getc, good, setFail, hc] at h

theorem param_ok (L : Layout) (P v : L.State) (t k : List Char) (h : ParamText L v t) :
    L.read P ⟨t ++ k, false, false⟩ = some (v, ⟨k, false, false⟩) := by
  cases L with
  | tuple Ts =>
    obtain ⟨ts, h1, rfl⟩ := h
    simp only [Layout.read, tuple_eq, List.append_assoc, List.cons_append, List.nil_append, delimC_ok,
      readTuple_ok h1 stop_cl]
    rfl
  | weights moved =>
    obtain ⟨n, ts, h1, h2, h3, h4, rfl⟩ := h
    obtain ⟨N, l⟩ := v
    simp only at h1 h2 h3 h4
    have hn := (reads_unsigned 64).ok _ _ _ (join ts ++ ')' :: k) h1 not_digit_sp
    have hlen : (BitVec.ofNat 64 l.length).toNat = l.length := by rw [BitVec.toNat_ofNat, Nat.mod_eq_of_lt h2]
    have hl := sepLoop_okB (reads_real .double) h3 stop_cl k
    have hw := weightLoop_ok l.length none ⟨join ts ++ ')' :: k, false, false⟩ (by rw [hl])
    rw [hl] at hw
    have e : ['('] ++ n ++ [' '] ++ [' '].intercalate ts ++ [')'] ++ k = '(' :: (n ++ ' ' :: (join ts ++ ')' :: k)) := by
      simp [join]
    rw [e]
    simp only [Layout.read, delimC_ok, good_ok, Bool.true_eq_false, if_false, hn, hlen, hw]
    subst h4
    cases moved <;> rfl
  | matrix F =>
    obtain ⟨n, ts, h1, h2, h3, h4, rfl⟩ := h
    obtain ⟨d, l⟩ := v
    simp only at h1 h2 h3 h4
    obtain ⟨x, y, hx, e⟩ : ∃ x y, Stop x ∧ tail ts ++ ')' :: k = x :: y := by
      cases h4 with
      | nil => exact ⟨')', k, stop_cl, rfl⟩
      | cons => exact ⟨' ', _, stop_sp, by rw [tail_cons]; rfl⟩
    have hn := (reads_unsigned 32).ok _ _ _ y h1 hx.not_digit
    have hl := preLoop_okB (reads_real F) h4 stop_cl k
    have hd : (BitVec.ofNat 32 d).toNat = d := by rw [BitVec.toNat_ofNat, Nat.mod_eq_of_lt h2]
    have hdd : (BitVec.ofNat 32 d * BitVec.ofNat 32 d).toNat = l.length := by
      rw [BitVec.toNat_mul, hd, h3]
    rw [e] at hl
    simp only [Layout.read, tuple_eq, join_cons, List.append_assoc, List.cons_append, List.nil_append, delimC_ok, good_ok,
      Bool.true_eq_false, if_false, e, hn, matrixLoop_eq, hd, hdd, hl]
    rfl

theorem param_sound (L : Layout) (P v : L.State) (s s' : In) (h : L.read P s = some (v, s')) (hf : s'.fail = false) :
    s.fail = false ∧ ∃ t, ParamText L v t ∧ s.rest = t ++ s'.rest := by
  cases L with
  | tuple Ts =>
    simp only [Layout.read] at h
    by_cases hc : ((readTuple Ts (s.delimC '(')).2.delimC ')').fail = true
    · rw [if_pos hc] at h
      replace h := some_pair h
      rw [h.2, hf] at hc; cases hc
    · rw [if_neg hc] at h
      replace h := some_pair h
      obtain ⟨rfl, rfl⟩ := h
      obtain ⟨a1, a2⟩ := delimC_sound hf
      obtain ⟨b1, ts, b3, b4⟩ := readTuple_sound _ _ a1
      obtain ⟨c1, c2⟩ := delimC_sound b1
      refine ⟨c1, tuple ts, ⟨ts, b3, rfl⟩, ?_⟩
      rw [c2, b4, a2, tuple_eq]
      simp
  | weights moved =>
    simp only [Layout.read] at h
    split at h
    · cases h
    split at h
    · cases h
    rename_i x hw
    by_cases hc : (x.2.delimC ')').fail = true
    · rw [if_pos hc] at h
      replace h := some_pair h
      rw [h.2, hf] at hc; cases hc
    · rw [if_neg hc] at h
      replace h := some_pair h
      obtain ⟨rfl, rfl⟩ := h
      obtain ⟨a1, a2⟩ := delimC_sound hf
      have hx := weightLoop_sound hw
      rw [hx] at a1
      have hok := weightLoop_ok _ none _ a1
      rw [hok, Option.some.injEq] at hw
      obtain ⟨b1, b2, ts, b3, b4⟩ := sepLoop_soundB (reads_real .double) _ _ a1
      rw [hw] at b2 b3 b4
      obtain ⟨c1, c2⟩ := delimC_sound b1
      obtain ⟨d1, t, d2, d3⟩ := (reads_unsigned 64).sound _ c1
      obtain ⟨e1, e2⟩ := delimC_sound d1
      refine ⟨e1, ['('] ++ t ++ [' '] ++ [' '].intercalate ts ++ [')'], ⟨t, ts, ?_, ?_, ?_, ?_, rfl⟩, ?_⟩
      · have : (makeWeights moved x.1).2 = x.1 := by cases moved <;> rfl
        rw [this, b2, BitVec.ofNat_toNat, BitVec.setWidth_eq]
        exact d2
      · have : (makeWeights moved x.1).2 = x.1 := by cases moved <;> rfl
        rw [this, b2]
        exact BitVec.isLt _
      · have : (makeWeights moved x.1).2 = x.1 := by cases moved <;> rfl
        rw [this]; exact b3
      · cases moved <;> rfl
      · rw [e2, d3, c2, b4, a2]
        simp [join]
  | matrix F =>
    simp only [Layout.read] at h
    split at h
    · cases h
    rw [matrixLoop_eq] at h
    by_cases hc : ((preLoop (readF F) (((s.delimC '(').readU 32).1 * ((s.delimC '(').readU 32).1).toNat
        ((s.delimC '(').readU 32).2).2.delimC ')').fail = true
    · rw [if_pos hc] at h
      replace h := some_pair h
      rw [h.2, hf] at hc; cases hc
    · rw [if_neg hc] at h
      replace h := some_pair h
      obtain ⟨rfl, rfl⟩ := h
      obtain ⟨a1, a2⟩ := delimC_sound hf
      obtain ⟨b1, b2, ts, b3, b4⟩ := preLoop_soundB (reads_real F) _ _ a1
      obtain ⟨d1, t, d2, d3⟩ := (reads_unsigned 32).sound _ b1
      obtain ⟨e1, e2⟩ := delimC_sound d1
      refine ⟨e1, tuple (t :: ts), ⟨t, ts, ?_, ?_, ?_, b3, rfl⟩, ?_⟩
      · rw [BitVec.ofNat_toNat, BitVec.setWidth_eq]; exact d2
      · exact BitVec.isLt _
      · rw [b2, BitVec.toNat_mul]
      · rw [e2, d3, b4, a2, tuple_eq, join_cons]
        simp

theorem param_unchanged (L : Layout) (P v : L.State) (s s' : In) (h : L.read P s = some (v, s')) (hf : s'.fail = true) :
    v = P := by
  cases L with
  | tuple Ts =>
    simp only [Layout.read] at h
    split at h <;> replace h := some_pair h
    · exact h.1.symm
    · rename_i hc; rw [h.2] at hc; exact absurd hf hc
  | weights moved =>
    simp only [Layout.read] at h
    split at h
    · cases h
    split at h
    · cases h
    split at h <;> replace h := some_pair h
    · exact h.1.symm
    · rename_i hc; rw [h.2] at hc; exact absurd hf hc
  | matrix F =>
    simp only [Layout.read] at h
    split at h
    · cases h
    split at h <;> replace h := some_pair h
    · exact h.1.symm
    · rename_i hc; rw [h.2] at hc; exact absurd hf hc

/-! ### Distributions -/

/-- the first character of the text -/
theorem inName_open (d : Dist) : ∃ cs, d.inName.toList = '[' :: cs := by
  have h : d.inName.toList.head? = some '[' := by cases d <;> simp only [Dist.inName] <;> decide
  cases hl : d.inName.toList with
  | nil => rw [hl] at h; cases h
  | cons c cs =>
    rw [hl, List.head?_cons, Option.some.injEq] at h
    exact ⟨cs, by rw [h]⟩

theorem dist_ok (d : Dist) (R v : d.State) (t bl k : List Char) (h : Text d.inName d.layout v t) (hb : ∀ c ∈ bl, Blank c) :
    d.read R ⟨bl ++ t ++ k, false, false⟩ = some (v, ⟨k, false, false⟩) := by
  obtain ⟨t', h1, rfl⟩ := h
  obtain ⟨cs, hcs⟩ := inName_open d
  have e : bl ++ (d.inName.toList ++ t' ++ [']']) ++ k = bl ++ '[' :: (cs ++ (t' ++ ']' :: k)) := by
    rw [hcs]; simp
  rw [Dist.read, e, ignoreSpaces_ok bl hb '[' (by unfold Blank; decide)]
  have e2 : '[' :: (cs ++ (t' ++ ']' :: k)) = d.inName.toList ++ (t' ++ ']' :: k) := by rw [hcs]; rfl
  rw [e2, delimStr_ok, param_ok _ _ _ _ _ h1]
  simp only [delimC_ok]
  rfl

theorem dist_sound (d : Dist) (R v : d.State) (s s' : In) (h : d.read R s = some (v, s')) (hf : s'.fail = false) :
    s.fail = false ∧ ∃ bl t, (∀ c ∈ bl, Blank c) ∧ Text d.inName d.layout v t ∧ s.rest = bl ++ t ++ s'.rest := by
  rw [Dist.read] at h
  split at h
  · cases h
  rename_i x hx
  simp only at h
  split at h <;> rename_i hc <;> replace h := some_pair h
  · rw [h.2, hf] at hc; cases hc
  · obtain ⟨rfl, rfl⟩ := h
    obtain ⟨a1, a2⟩ := delimC_sound hf
    obtain ⟨b1, t, b2, b3⟩ := param_sound _ _ _ _ _ hx a1
    obtain ⟨c1, c2⟩ := delimStr_sound b1
    obtain ⟨e1, bl, e2, e3⟩ := ignoreSpaces_sound s
    refine ⟨by rw [← e1]; exact c1, bl, _, e2, ⟨t, b2, rfl⟩, ?_⟩
    rw [e3, c2, b3, a2]; simp

theorem dist_unchanged (d : Dist) (R v : d.State) (s s' : In) (h : d.read R s = some (v, s')) (hf : s'.fail = true) :
    v = R := by
  rw [Dist.read] at h
  split at h
  · cases h
  simp only at h
  split at h <;> rename_i hc <;> replace h := some_pair h
  · exact h.1.symm
  · rw [h.2] at hc; exact absurd hf hc

theorem param_defined {L : Layout} {ts : List Ty} (hd : L = .tuple ts) (P : L.State) (s : In) : (L.read P s).isSome := by
  subst hd
  simp only [Layout.read]
  split <;> rfl

/-- reading numbers never has undefined behaviour -/
theorem dist_defined {d : Dist} {ts : List Ty} (hd : d.layout = .tuple ts) (R : d.State) (s : In) : (d.read R s).isSome := by
  have : ∀ (L : Layout), L = .tuple ts → ∀ P s, (L.read P s).isSome := by
    rintro L rfl P s
    simp only [Layout.read]
    split <;> rfl
  rw [Dist.read]
  split
  · rename_i hn
    have := this _ hd d.layout.default (s.ignoreSpaces.delimStr d.inName.toList)
    rw [hn] at this; cases this
  · simp only; split <;> rfl

/-! ### Writing -/

theorem outTuple_texts {k : ℕ} {Ts : List Ty} {P : Tuple Ts} (hk : ∀ F, Ty.real F ∈ Ts → 5 ^ k ≤ 2 ^ (F.p - 1))
    (h : AllTuple ValFits Ts P) : ∃ ts, TupleTexts Ts (backTuple k Ts P) ts ∧ outTuple k Ts P = join ts := by
  induction Ts with
  | nil => exact ⟨[], rfl, rfl⟩
  | cons T Ts ih =>
    obtain ⟨ts, h1, h2⟩ := ih (fun F hF => hk F (by simp [hF])) h.2
    have hv : ValText T (backVal k T P.1) (T.out k P.1) := by
      cases T with
      | int => exact text_int h.1.1 h.1.2
      | unsigned w => exact text_unsigned _
      | real F => exact text_back (hk F (by simp)) h.1
    refine ⟨T.out k P.1 :: ts, ⟨_, ts, rfl, hv, h1⟩, ?_⟩
    rw [outTuple, join_cons]
    cases Ts with
    | nil =>
      have : ts = [] := h1
      subst this; simp
    | cons T' Ts' =>
      obtain ⟨t', ts', rfl, _⟩ := h1
      rw [if_neg (by simp), h2, tail_cons, join_cons]

theorem outSep_join {α : Type} (out : α → List Char) (l : List α) : outSep out l = join (l.map out) := by
  induction l with
  | nil => rfl
  | cons x l ih =>
    cases l with
    | nil => simp [outSep, join_cons]
    | cons y l => rw [outSep, if_neg (by simp), ih]; simp [join_cons]

theorem outPre_tail {α : Type} (out : α → List Char) (l : List α) : outPre out l = tail (l.map out) := by
  rw [outPre, tail, List.flatMap_map]

theorem forall_back {F : FloatType} {k : ℕ} (hk : 5 ^ k ≤ 2 ^ (F.p - 1)) {l : List FVal} (h : ∀ v ∈ l, ValFits (.real F) v) :
    List.Forall₂ (RealText F) (l.map (backF F k)) (l.map (outF k)) := by
  induction l with
  | nil => exact .nil
  | cons v l ih => exact .cons (text_back hk (h v (by simp))) (ih fun v hv => h v (by simp [hv]))

/-- what is written is a text for the parameters, up to decimals -/
theorem text_out {L : Layout} (hfast : L ≠ .weights true) {k : ℕ} (hk : ∀ F ∈ reals L, 5 ^ k ≤ 2 ^ (F.p - 1)) {P : L.State}
    (h : Fits L P) : ParamText L (back k L P) (L.out k P) := by
  cases L with
  | tuple Ts =>
    obtain ⟨ts, h1, h2⟩ := outTuple_texts (fun F hF => hk F (mem_reals.2 hF)) h.2
    exact ⟨ts, h1, by show ['('] ++ outTuple k Ts P ++ [')'] = _; rw [h2, tuple_eq]; rfl⟩
  | weights b =>
    cases b with
    | true => exact absurd rfl hfast
    | false =>
      obtain ⟨N, l⟩ := P
      obtain ⟨⟨h1, h2⟩, h3⟩ := h
      simp only at h1 h2 h3
      subst h1
      have ht := text_unsigned (BitVec.ofNat 64 l.length)
      have hlen : (BitVec.ofNat 64 l.length).toNat = l.length := by rw [BitVec.toNat_ofNat, Nat.mod_eq_of_lt h2]
      rw [outU, hlen] at ht
      have hl : (back k (.weights false) (l.length, l)).2.length = l.length := by
        show (l.map (backF .double k)).length = _
        rw [List.length_map]
      refine ⟨decimal l.length, _, ?_, ?_, forall_back (hk .double (by simp [reals])) h3, ?_, ?_⟩
      · rw [hl]; exact ht
      · rw [hl]; exact h2
      · rw [hl]; rfl
      · show ['('] ++ decimal l.length ++ [' '] ++ outSep _ l ++ [')'] = _
        rw [outSep_join]; rfl
  | matrix F =>
    obtain ⟨N, l⟩ := P
    obtain ⟨⟨h1, h2⟩, h3⟩ := h
    simp only at h1 h2 h3
    have hN : N < 2 ^ 32 := by
      by_contra hc
      have : 2 ^ 32 * 1 ≤ N * N := Nat.mul_le_mul (by omega) (by omega)
      omega
    have ht := text_unsigned (BitVec.ofNat 32 N)
    have hlen : (BitVec.ofNat 32 N).toNat = N := by rw [BitVec.toNat_ofNat, Nat.mod_eq_of_lt hN]
    rw [outU, hlen] at ht
    refine ⟨_, _, ht, hN, ?_, forall_back (hk F (by simp [reals])) h3, ?_⟩
    · show (l.map (backF F k)).length = _
      rw [List.length_map, h1]
      exact (Nat.mod_eq_of_lt h2).symm
    · show ['('] ++ decimal N ++ outPre _ l ++ [')'] = _
      rw [outPre_tail, tuple_eq, join_cons]; simp

theorem digits_ok (F : FloatType) : 5 ^ (F.digits10 + 1) ≤ 2 ^ (F.p - 1) := by
  cases F <;> simp [FloatType.digits10, FloatType.p]

/-- the precision is not larger than the types of the parameters can use -/
theorem precision_ok (d : Dist) (prec : ℕ) (h : d.precision = none → ∀ F ∈ reals d.layout, 5 ^ prec ≤ 2 ^ (F.p - 1)) :
    ∀ F ∈ reals d.layout, 5 ^ d.precision.getD prec ≤ 2 ^ (F.p - 1) := by
  have own : ∀ (F : FloatType) (L : Layout), (∀ G ∈ reals L, G = F) →
      ∀ G ∈ reals L, 5 ^ (F.digits10 + 1) ≤ 2 ^ (G.p - 1) := by
    intro F L hL G hG
    rw [hL G hG]; exact digits_ok F
  cases d with
  | bernoulli T => exact h rfl
  | chiSquare => exact h rfl
  | studentT => exact h rfl
  | snedecorF => exact h rfl
  | uniformInt => exact h rfl
  | uniform01 => exact h rfl
  | beta F | cauchy F | extremeValue F | gamma F | logistic F | lognormal F | normal F | pareto F | powerlaw F | tent F
  | uniform F | weibull F | exponential F | maxwell F | rayleigh F | twosidedExponential F | truncatedNormal F
  | correlatedNormal F =>
    exact own F _ (by simp [Dist.layout, reals])
  | binomial | negativeBinomial | geometric | poisson | zeroTruncatedPoisson | hypergeometric | discrete | fastDiscrete =>
    exact own .double _ (by simp [Dist.layout, reals])

end Trng.DistText
