import Verif.Proofs.Stream

namespace Trng.Stream
open In StreamSpec Spec

/-! ### Joining texts -/

/-- the texts, each with a blank before it -/
def tail (ts : List (List Char)) : List Char := ts.flatMap fun t => ' ' :: t
/-- the texts with blanks between them -/
def join (ts : List (List Char)) : List Char := [' '].intercalate ts

@[simp] theorem tail_nil : tail [] = [] := rfl
@[simp] theorem tail_cons (t : List Char) (ts) : tail (t :: ts) = ' ' :: (t ++ tail ts) := by simp [tail]
@[simp] theorem join_nil : join [] = [] := rfl
theorem join_cons (t : List Char) (ts) : join (t :: ts) = t ++ tail ts := by
  induction ts generalizing t with
  | nil => simp [join, List.intercalate]
  | cons u ts ih =>
    have := ih u
    simp only [join, List.intercalate, List.intersperse] at this ⊢
    simp [this]
theorem tuple_eq (ts : List (List Char)) : tuple ts = '(' :: (join ts ++ [')']) := rfl

theorem not_digit_sp : ¬ IsDigit 10 ' ' := by decide
theorem not_digit_cl : ¬ IsDigit 10 ')' := by decide

/-- what a reader of a tuple does -/
structure Whole {α : Type} (T : α → List Char → Prop) (rd : In → α × In) : Prop where
  ok : ∀ v t k, T v t → rd ⟨t ++ k, false, false⟩ = (v, ⟨k, false, false⟩)
  sound : ∀ s, (rd s).2.fail = false → s.fail = false ∧ ∃ t, T (rd s).1 t ∧ s.rest = t ++ (rd s).2.rest

/-- the texts for an object given by its list of numbers -/
def Tup {α : Type} (fs : α → List Field) (v : α) (t : List Char) : Prop :=
  ∃ ts, List.Forall₂ Field.Text (fs v) ts ∧ t = tuple ts

/-- the end of every reader -/
def finish {α : Type} (P v : α) (s : In) : α × In := if s.fail then (P, s) else (v, s)

theorem finish_snd {α : Type} (P v : α) (s : In) : (finish P v s).2 = s := by
  unfold finish; split <;> rfl
theorem finish_ok {α : Type} {P v : α} {s : In} (h : s.fail = false) : finish P v s = (v, s) := by
  simp [finish, h]

section straight
variable {α β₁ β₂ β₃ β₄ : Type} {fs : α → List Field} {F₁ : β₁ → Field} {F₂ : β₂ → Field} {F₃ : β₃ → Field} {F₄ : β₄ → Field}
  {r₁ : In → β₁ × In} {r₂ : In → β₂ × In} {r₃ : In → β₃ × In} {r₄ : In → β₄ × In}

theorem whole0 (hfs : ∀ v, fs v = []) (u : α) (hu : ∀ v, v = u) :
    Whole (Tup fs) fun s => (u, (s.delimC '(').delimC ')') where
  ok v t k := by
    rintro ⟨ts, h, rfl⟩
    rw [hfs] at h; cases h
    rw [tuple_eq]
    simp only [join_nil, List.nil_append, List.cons_append, delimC_ok]
    rw [hu v]
  sound s h := by
    obtain ⟨a1, a2⟩ := delimC_sound h
    obtain ⟨b1, b2⟩ := delimC_sound a1
    refine ⟨b1, tuple [], ⟨[], by rw [hfs]; exact .nil, rfl⟩, ?_⟩
    rw [b2, a2]; rfl

theorem whole1 (h₁ : Reads (fun v => (F₁ v).Text) r₁) (mk : β₁ → α) (un : α → β₁) (hmk : ∀ v, mk (un v) = v)
    (hfs : ∀ a, fs (mk a) = [F₁ a]) (P : α) :
    Whole (Tup fs) fun s =>
      let a := r₁ (s.delimC '(')
      finish P (mk a.1) (a.2.delimC ')') where
  ok v t k := by
    rintro ⟨ts, h, rfl⟩
    rw [← hmk v, hfs] at h
    cases h with | cons t1 h =>
    cases h
    simp only [tuple_eq, join_cons, tail_nil, List.append_nil, List.append_assoc, List.cons_append, List.nil_append, delimC_ok,
      h₁.ok _ _ _ _ t1 not_digit_cl]
    rw [finish_ok rfl, hmk]
  sound s h := by
    simp only [finish_snd] at h ⊢
    rw [finish_ok h]
    obtain ⟨a1, a2⟩ := delimC_sound h
    obtain ⟨b1, t1, b2, b3⟩ := h₁.sound _ a1
    obtain ⟨c1, c2⟩ := delimC_sound b1
    refine ⟨c1, tuple [t1], ⟨[t1], by rw [hfs]; exact .cons b2 .nil, rfl⟩, ?_⟩
    rw [c2, b3, a2]
    simp [tuple_eq, join_cons]

theorem whole2 (h₁ : Reads (fun v => (F₁ v).Text) r₁) (h₂ : Reads (fun v => (F₂ v).Text) r₂)
    (mk : β₁ → β₂ → α) (un₁ : α → β₁) (un₂ : α → β₂) (hmk : ∀ v, mk (un₁ v) (un₂ v) = v)
    (hfs : ∀ a b, fs (mk a b) = [F₁ a, F₂ b]) (P : α) :
    Whole (Tup fs) fun s =>
      let a := r₁ (s.delimC '(')
      let b := r₂ (a.2.delimC ' ')
      finish P (mk a.1 b.1) (b.2.delimC ')') where
  ok v t k := by
    rintro ⟨ts, h, rfl⟩
    rw [← hmk v, hfs] at h
    cases h with | cons t1 h =>
    cases h with | cons t2 h =>
    cases h
    simp only [tuple_eq, join_cons, tail_cons, tail_nil, List.append_nil, List.append_assoc, List.cons_append, List.nil_append,
      delimC_ok, h₁.ok _ _ _ _ t1 not_digit_sp, h₂.ok _ _ _ _ t2 not_digit_cl]
    rw [finish_ok rfl, hmk]
  sound s h := by
    simp only [finish_snd] at h ⊢
    rw [finish_ok h]
    obtain ⟨a1, a2⟩ := delimC_sound h
    obtain ⟨b1, t2, b2, b3⟩ := h₂.sound _ a1
    obtain ⟨c1, c2⟩ := delimC_sound b1
    obtain ⟨d1, t1, d2, d3⟩ := h₁.sound _ c1
    obtain ⟨e1, e2⟩ := delimC_sound d1
    refine ⟨e1, tuple [t1, t2], ⟨[t1, t2], by rw [hfs]; exact .cons d2 (.cons b2 .nil), rfl⟩, ?_⟩
    rw [e2, d3, c2, b3, a2]
    simp [tuple_eq, join_cons]

theorem whole3 (h₁ : Reads (fun v => (F₁ v).Text) r₁) (h₂ : Reads (fun v => (F₂ v).Text) r₂)
    (h₃ : Reads (fun v => (F₃ v).Text) r₃)
    (mk : β₁ → β₂ → β₃ → α) (un₁ : α → β₁) (un₂ : α → β₂) (un₃ : α → β₃) (hmk : ∀ v, mk (un₁ v) (un₂ v) (un₃ v) = v)
    (hfs : ∀ a b c, fs (mk a b c) = [F₁ a, F₂ b, F₃ c]) (P : α) :
    Whole (Tup fs) fun s =>
      let a := r₁ (s.delimC '(')
      let b := r₂ (a.2.delimC ' ')
      let c := r₃ (b.2.delimC ' ')
      finish P (mk a.1 b.1 c.1) (c.2.delimC ')') where
  ok v t k := by
    rintro ⟨ts, h, rfl⟩
    rw [← hmk v, hfs] at h
    cases h with | cons t1 h =>
    cases h with | cons t2 h =>
    cases h with | cons t3 h =>
    cases h
    simp only [tuple_eq, join_cons, tail_cons, tail_nil, List.append_nil, List.append_assoc, List.cons_append, List.nil_append,
      delimC_ok, h₁.ok _ _ _ _ t1 not_digit_sp, h₂.ok _ _ _ _ t2 not_digit_sp, h₃.ok _ _ _ _ t3 not_digit_cl]
    rw [finish_ok rfl, hmk]
  sound s h := by
    simp only [finish_snd] at h ⊢
    rw [finish_ok h]
    obtain ⟨x1, x2⟩ := delimC_sound h
    obtain ⟨y1, t3, y2, y3⟩ := h₃.sound _ x1
    obtain ⟨a1, a2⟩ := delimC_sound y1
    obtain ⟨b1, t2, b2, b3⟩ := h₂.sound _ a1
    obtain ⟨c1, c2⟩ := delimC_sound b1
    obtain ⟨d1, t1, d2, d3⟩ := h₁.sound _ c1
    obtain ⟨e1, e2⟩ := delimC_sound d1
    refine ⟨e1, tuple [t1, t2, t3], ⟨[t1, t2, t3], by rw [hfs]; exact .cons d2 (.cons b2 (.cons y2 .nil)), rfl⟩, ?_⟩
    rw [e2, d3, c2, b3, a2, y3, x2]
    simp [tuple_eq, join_cons]

theorem whole4 (h₁ : Reads (fun v => (F₁ v).Text) r₁) (h₂ : Reads (fun v => (F₂ v).Text) r₂)
    (h₃ : Reads (fun v => (F₃ v).Text) r₃) (h₄ : Reads (fun v => (F₄ v).Text) r₄)
    (mk : β₁ → β₂ → β₃ → β₄ → α) (un₁ : α → β₁) (un₂ : α → β₂) (un₃ : α → β₃) (un₄ : α → β₄)
    (hmk : ∀ v, mk (un₁ v) (un₂ v) (un₃ v) (un₄ v) = v)
    (hfs : ∀ a b c d, fs (mk a b c d) = [F₁ a, F₂ b, F₃ c, F₄ d]) (P : α) :
    Whole (Tup fs) fun s =>
      let a := r₁ (s.delimC '(')
      let b := r₂ (a.2.delimC ' ')
      let c := r₃ (b.2.delimC ' ')
      let d := r₄ (c.2.delimC ' ')
      finish P (mk a.1 b.1 c.1 d.1) (d.2.delimC ')') where
  ok v t k := by
    rintro ⟨ts, h, rfl⟩
    rw [← hmk v, hfs] at h
    cases h with | cons t1 h =>
    cases h with | cons t2 h =>
    cases h with | cons t3 h =>
    cases h with | cons t4 h =>
    cases h
    simp only [tuple_eq, join_cons, tail_cons, tail_nil, List.append_nil, List.append_assoc, List.cons_append, List.nil_append,
      delimC_ok, h₁.ok _ _ _ _ t1 not_digit_sp, h₂.ok _ _ _ _ t2 not_digit_sp, h₃.ok _ _ _ _ t3 not_digit_sp,
      h₄.ok _ _ _ _ t4 not_digit_cl]
    rw [finish_ok rfl, hmk]
  sound s h := by
    simp only [finish_snd] at h ⊢
    rw [finish_ok h]
    obtain ⟨z1, z2⟩ := delimC_sound h
    obtain ⟨w1, t4, w2, w3⟩ := h₄.sound _ z1
    obtain ⟨x1, x2⟩ := delimC_sound w1
    obtain ⟨y1, t3, y2, y3⟩ := h₃.sound _ x1
    obtain ⟨a1, a2⟩ := delimC_sound y1
    obtain ⟨b1, t2, b2, b3⟩ := h₂.sound _ a1
    obtain ⟨c1, c2⟩ := delimC_sound b1
    obtain ⟨d1, t1, d2, d3⟩ := h₁.sound _ c1
    obtain ⟨e1, e2⟩ := delimC_sound d1
    refine ⟨e1, tuple [t1, t2, t3, t4],
      ⟨[t1, t2, t3, t4], by rw [hfs]; exact .cons d2 (.cons b2 (.cons y2 (.cons w2 .nil))), rfl⟩, ?_⟩
    rw [e2, d3, c2, b3, a2, y3, x2, w3, z2]
    simp [tuple_eq, join_cons]

end straight

/-! ### The loops -/

section loops
variable {β : Type} {T : β → List Char → Prop} {rd : In → β × In}

theorem sepLoop_ok (h : Reads T rd) {l : List β} {ts} (hl : List.Forall₂ T l ts) {c : Char} (hc : ¬ IsDigit 10 c)
    (k : List Char) :
    sepLoop rd l.length ⟨join ts ++ c :: k, false, false⟩ = (l, ⟨c :: k, false, false⟩) := by
  induction hl with
  | nil => rfl
  | @cons v t l ts hv hl ih =>
    rw [List.length_cons, sepLoop]
    cases hl with
    | nil =>
      simp only [join_cons, tail_nil, List.append_nil, h.ok _ _ _ _ hv hc, List.length_nil, lt_irrefl, if_false]
      rfl
    | @cons v' t' l ts hv' hl =>
      rw [join_cons] at ih
      simp only [join_cons, tail_cons, List.append_assoc, List.cons_append] at ih ⊢
      simp only [h.ok _ _ _ _ hv not_digit_sp, List.length_cons, Nat.succ_pos', if_true, delimC_ok]
      rw [List.length_cons] at ih
      rw [ih]

theorem sepLoop_sound (h : Reads T rd) (m : Nat) (s : In) (hf : (sepLoop rd m s).2.fail = false) :
    s.fail = false ∧ (sepLoop rd m s).1.length = m ∧
    ∃ ts, List.Forall₂ T (sepLoop rd m s).1 ts ∧ s.rest = join ts ++ (sepLoop rd m s).2.rest := by
  induction m generalizing s with
  | zero => exact ⟨hf, rfl, [], .nil, rfl⟩
  | succ m ih =>
    rw [sepLoop] at hf ⊢
    simp only at hf ⊢
    obtain ⟨i1, i2, ts, i3, i4⟩ := ih _ hf
    by_cases hm : 0 < m
    · simp only [hm, if_true] at i1 i2 i3 i4 ⊢
      obtain ⟨a1, a2⟩ := delimC_sound i1
      obtain ⟨b1, t, b2, b3⟩ := h.sound _ a1
      refine ⟨b1, by rw [List.length_cons, i2], t :: ts, .cons b2 i3, ?_⟩
      rw [b3, a2, i4]
      have hl := i3.length_eq.symm.trans i2
      cases ts with
      | nil => simp at hl; omega
      | cons => simp [join_cons]
    · simp only [hm, if_false] at i1 i2 i3 i4 ⊢
      obtain ⟨b1, t, b2, b3⟩ := h.sound _ i1
      refine ⟨b1, by rw [List.length_cons, i2], t :: ts, .cons b2 i3, ?_⟩
      rw [b3, i4]
      have hl := i3.length_eq.symm.trans i2
      cases ts with
      | nil => simp [join_cons]
      | cons => simp at hl; omega

theorem preLoop_ok (h : Reads T rd) {l : List β} {ts} (hl : List.Forall₂ T l ts) {c : Char} (hc : ¬ IsDigit 10 c)
    (k : List Char) :
    preLoop rd l.length ⟨tail ts ++ c :: k, false, false⟩ = (l, ⟨c :: k, false, false⟩) := by
  induction hl with
  | nil => rfl
  | @cons v t l ts hv hl ih =>
    rw [List.length_cons, preLoop]
    simp only [tail_cons, List.cons_append, delimC_ok, List.append_assoc]
    obtain ⟨x, y, hx, e⟩ : ∃ x y, ¬ IsDigit 10 x ∧ tail ts ++ c :: k = x :: y := by
      cases hl with
      | nil => exact ⟨c, k, hc, rfl⟩
      | cons => exact ⟨' ', _, not_digit_sp, by rw [tail_cons]; rfl⟩
    rw [e] at ih ⊢
    rw [h.ok _ _ _ _ hv hx, ih]

theorem preLoop_sound (h : Reads T rd) (m : Nat) (s : In) (hf : (preLoop rd m s).2.fail = false) :
    s.fail = false ∧ (preLoop rd m s).1.length = m ∧
    ∃ ts, List.Forall₂ T (preLoop rd m s).1 ts ∧ s.rest = tail ts ++ (preLoop rd m s).2.rest := by
  induction m generalizing s with
  | zero => exact ⟨hf, rfl, [], .nil, rfl⟩
  | succ m ih =>
    rw [preLoop] at hf ⊢
    simp only at hf ⊢
    obtain ⟨i1, i2, ts, i3, i4⟩ := ih _ hf
    obtain ⟨b1, t, b2, b3⟩ := h.sound _ i1
    obtain ⟨a1, a2⟩ := delimC_sound b1
    refine ⟨a1, by rw [List.length_cons, i2], t :: ts, .cons b2 i3, ?_⟩
    rw [a2, b3, i4]; simp

theorem rangeLoop_ok (d : β) (h : Reads T rd) {l : List β} {ts} (hl : List.Forall₂ T l ts) {c : Char} (hc : ¬ IsDigit 10 c)
    (k : List Char) :
    rangeLoop d rd l.length ⟨join ts ++ c :: k, false, false⟩ = (l, ⟨c :: k, false, false⟩) := by
  induction hl with
  | nil => rfl
  | @cons v t l ts hv hl ih =>
    rw [List.length_cons, rangeLoop, if_neg (by simp)]
    cases hl with
    | nil =>
      simp only [join_cons, tail_nil, List.append_nil, h.ok _ _ _ _ hv hc, List.length_nil, lt_irrefl, if_false]
      rfl
    | @cons v' t' l ts hv' hl =>
      rw [join_cons] at ih
      simp only [join_cons, tail_cons, List.append_assoc, List.cons_append] at ih ⊢
      have hd := delimStr_ok [' '] (t' ++ (tail ts ++ c :: k))
      rw [List.singleton_append] at hd
      simp only [h.ok _ _ _ _ hv not_digit_sp, List.length_cons, Nat.succ_pos', if_true, hd]
      rw [List.length_cons] at ih
      rw [ih]

theorem rangeLoop_sound (d : β) (h : Reads T rd) (m : Nat) (s : In) (hf : (rangeLoop d rd m s).2.fail = false) :
    s.fail = false ∧ (rangeLoop d rd m s).1.length = m ∧
    ∃ ts, List.Forall₂ T (rangeLoop d rd m s).1 ts ∧ s.rest = join ts ++ (rangeLoop d rd m s).2.rest := by
  induction m generalizing s with
  | zero => exact ⟨hf, rfl, [], .nil, rfl⟩
  | succ m ih =>
    rw [rangeLoop] at hf ⊢
    by_cases hs : s.fail = true
    · rw [if_pos hs] at hf; rw [hs] at hf; cases hf
    simp only [if_neg hs] at hf ⊢
    obtain ⟨i1, i2, ts, i3, i4⟩ := ih _ hf
    by_cases hm : 0 < m
    · simp only [hm, if_true] at i1 i2 i3 i4 ⊢
      obtain ⟨a1, a2⟩ := delimStr_sound i1
      obtain ⟨b1, t, b2, b3⟩ := h.sound _ a1
      refine ⟨b1, by rw [List.length_cons, i2], t :: ts, .cons b2 i3, ?_⟩
      rw [b3, a2, i4]
      have hl := i3.length_eq.symm.trans i2
      cases ts with
      | nil => simp at hl; omega
      | cons => simp [join_cons]
    · simp only [hm, if_false] at i1 i2 i3 i4 ⊢
      obtain ⟨b1, t, b2, b3⟩ := h.sound _ i1
      refine ⟨b1, by rw [List.length_cons, i2], t :: ts, .cons b2 i3, ?_⟩
      rw [b3, i4]
      have hl := i3.length_eq.symm.trans i2
      cases ts with
      | nil => simp [join_cons]
      | cons => simp at hl; omega

end loops

/-! ### Arrays -/

theorem array_ofFn {β : Type} {n : Nat} (d : β) (a : Fin n → β) : array d (List.ofFn a) = a := by
  funext i
  simp [array]

theorem ofFn_array {β : Type} {n : Nat} (d : β) (l : List β) (h : l.length = n) :
    List.ofFn (array d l : Fin n → β) = l := by
  subst h
  apply List.ext_getElem
  · simp
  · intro i h1 h2
    simp [array, List.getElem?_eq_getElem h2]

theorem ofFn_map {β γ : Type} {n : Nat} (f : β → γ) (a : Fin n → β) : List.ofFn (fun i => f (a i)) = (List.ofFn a).map f := by
  rw [List.map_ofFn]; rfl

/-! ### The readers of the engines' parts -/

theorem whole_mrg (n : Nat) (a : Fin n → Int) :
    Whole (Tup fun v : Fin n → Int => List.ofFn fun i => .int (v i)) (readMrgTuple a) where
  ok v t k := by
    rintro ⟨ts, h, rfl⟩
    beta_reduce at h
    rw [ofFn_map (fun x => Field.int x), List.forall₂_map_left_iff] at h
    have := sepLoop_ok reads_int h not_digit_cl k
    rw [List.length_ofFn] at this
    simp only [readMrgTuple, tuple_eq, List.cons_append, List.append_assoc, List.nil_append, delimC_ok, this]
    rw [array_ofFn]; rfl
  sound s h := by
    have e : readMrgTuple a s = finish a (array 0 (sepLoop readInt n (s.delimC '(')).1)
      ((sepLoop readInt n (s.delimC '(')).2.delimC ')') := rfl
    rw [e] at h ⊢
    rw [finish_snd] at h
    rw [finish_ok h]
    obtain ⟨a1, a2⟩ := delimC_sound h
    obtain ⟨b1, b2, ts, b3, b4⟩ := sepLoop_sound reads_int _ _ a1
    obtain ⟨c1, c2⟩ := delimC_sound b1
    refine ⟨c1, tuple ts, ⟨ts, ?_, rfl⟩, ?_⟩
    · beta_reduce
      rw [ofFn_map (fun x => Field.int x), List.forall₂_map_left_iff, ofFn_array 0 _ b2]; exact b3
    · rw [c2, b4, a2]; simp [tuple_eq]

theorem whole_lagfib (P : LagFib.Params) (w : Nat) (S : LagFib P w) :
    Whole (Tup fun v : LagFib P w => .unsigned 32 v.index :: List.ofFn fun i => .unsigned w (v.r i)) (readLagfibStatus S) where
  ok v t k := by
    rintro ⟨ts, h, rfl⟩
    cases h with | @cons _ t _ ts ht h =>
    rw [ofFn_map (fun x => Field.unsigned w x), List.forall₂_map_left_iff] at h
    have := preLoop_ok (reads_unsigned w) h not_digit_cl k
    rw [List.length_ofFn] at this
    obtain ⟨x, y, hx, e⟩ : ∃ x y, ¬ IsDigit 10 x ∧ tail ts ++ ')' :: k = x :: y := by
      cases ts with
      | nil => exact ⟨')', k, not_digit_cl, rfl⟩
      | cons => exact ⟨' ', _, not_digit_sp, by rw [tail_cons]; rfl⟩
    have ht' := (reads_unsigned 32).ok _ _ x y ht hx
    rw [← e] at ht'
    simp only [readLagfibStatus, tuple_eq, join_cons, List.cons_append, List.append_assoc, List.nil_append, delimC_ok, ht', this]
    rw [array_ofFn]; rfl
  sound s h := by
    have e : readLagfibStatus S s = finish S
      ⟨array 0 (preLoop (readU w) P.size ((s.delimC '(').readU 32).2).1, ((s.delimC '(').readU 32).1⟩
      ((preLoop (readU w) P.size ((s.delimC '(').readU 32).2).2.delimC ')') := rfl
    rw [e] at h ⊢
    rw [finish_snd] at h
    rw [finish_ok h]
    obtain ⟨a1, a2⟩ := delimC_sound h
    obtain ⟨b1, b2, ts, b3, b4⟩ := preLoop_sound (reads_unsigned w) _ _ a1
    obtain ⟨c1, t, c2, c3⟩ := (reads_unsigned 32).sound _ b1
    obtain ⟨d1, d2⟩ := delimC_sound c1
    refine ⟨d1, tuple (t :: ts), ⟨t :: ts, .cons c2 ?_, rfl⟩, ?_⟩
    · rw [ofFn_map (fun x => Field.unsigned w x), List.forall₂_map_left_iff, ofFn_array 0 _ b2]; exact b3
    · rw [d2, c3, b4, a2]; simp [tuple_eq, join_cons]

theorem whole_mt {w : Nat} (P : MT.Params w) (hN : 0 < P.N) (S : MT P) :
    Whole (Tup fun v : MT P => .int v.mti :: List.ofFn fun i => .unsigned w (v.mt i)) (readMtStatus S) where
  ok v t k := by
    rintro ⟨ts, h, rfl⟩
    cases h with | @cons _ t _ ts ht h =>
    rw [ofFn_map (fun x => Field.unsigned w x), List.forall₂_map_left_iff] at h
    have hr := rangeLoop_ok (0 : BitVec w) (reads_unsigned w) h not_digit_cl k
    have hlen : ts.length = P.N := by rw [← h.length_eq, List.length_ofFn]
    rw [List.length_ofFn] at hr
    have e : tail ts = ' ' :: join ts := by
      cases ts with
      | nil => simp at hlen; omega
      | cons => simp [join_cons]
    simp only [readMtStatus, tuple_eq, join_cons t ts, List.cons_append, List.append_assoc, List.nil_append, delimC_ok, e,
      reads_int.ok _ _ _ _ ht not_digit_sp, hr]
    rw [array_ofFn]; rfl
  sound s h := by
    have e : readMtStatus S s = finish S
      ⟨((s.delimC '(').readInt).1, array 0 (rangeLoop 0 (readU w) P.N (((s.delimC '(').readInt).2.delimC ' ')).1⟩
      ((rangeLoop 0 (readU w) P.N (((s.delimC '(').readInt).2.delimC ' ')).2.delimC ')') := rfl
    rw [e] at h ⊢
    rw [finish_snd] at h
    rw [finish_ok h]
    obtain ⟨a1, a2⟩ := delimC_sound h
    obtain ⟨b1, b2, ts, b3, b4⟩ := rangeLoop_sound 0 (reads_unsigned w) _ _ a1
    obtain ⟨x1, x2⟩ := delimC_sound b1
    obtain ⟨c1, t, c2, c3⟩ := reads_int.sound _ x1
    obtain ⟨d1, d2⟩ := delimC_sound c1
    refine ⟨d1, tuple (t :: ts), ⟨t :: ts, .cons c2 ?_, rfl⟩, ?_⟩
    · rw [ofFn_map (fun x => Field.unsigned w x), List.forall₂_map_left_iff, ofFn_array 0 _ b2]; exact b3
    · have hl := b3.length_eq.symm.trans b2
      rw [d2, c3, x2, b4, a2]
      cases ts with
      | nil => simp at hl; omega
      | cons => simp [tuple_eq, join_cons]

/-! ### Whole engines -/

theorem not_blank : ¬ Blank '[' := by unfold Blank; decide

section engine
variable {π σ : Type} {fp : π → List Field} {fq : σ → List Field} {rp : In → π × In} {rq : In → σ × In} {name : List Char}

/-- what reading an engine does -/
structure EngineReads {α : Type} (name : List Char) (fs : α → List (List Field)) (rd : α → In → α × In) : Prop where
  ok : ∀ R v bl ts k, (∀ c ∈ bl, Blank c) → List.Forall₂ (List.Forall₂ Field.Text) (fs v) ts →
    rd R ⟨bl ++ record name ts ++ k, false, false⟩ = (v, ⟨k, false, false⟩)
  sound : ∀ R s, (rd R s).2.fail = false → s.fail = false ∧ ∃ bl ts, (∀ c ∈ bl, Blank c) ∧
    List.Forall₂ (List.Forall₂ Field.Text) (fs (rd R s).1) ts ∧ s.rest = bl ++ record name ts ++ (rd R s).2.rest
  unchanged : ∀ R s, (rd R s).2.fail = true → (rd R s).1 = R

theorem record_eq (name : List Char) (ts) : record name ts = '[' :: (name ++ (tail (ts.map tuple) ++ [']'])) := by
  have := join_cons name (ts.map tuple)
  rw [join] at this
  rw [record, this]; simp

theorem engine1 (hq : Whole (Tup fq) rq) : EngineReads name (fun v => [fq v]) fun R s => read1 name rq R s where
  ok R v bl ts k hb h := by
    cases h with | @cons _ t _ ts ht h =>
    cases h
    simp only [record_eq, List.map_cons, List.map_nil, tail_cons, tail_nil, List.append_nil, List.append_assoc, List.cons_append,
      List.nil_append]
    rw [read1, ignoreSpaces_ok bl hb _ not_blank]
    simp only [delimC_ok, delimStr_ok, hq.ok v (tuple t) (']' :: k) ⟨t, ht, rfl⟩]
    rfl
  sound R s h := by
    have e : read1 name rq R s = finish R (rq (((s.ignoreSpaces.delimC '[').delimStr name).delimC ' ')).1
      ((rq (((s.ignoreSpaces.delimC '[').delimStr name).delimC ' ')).2.delimC ']') := rfl
    simp only [e] at h ⊢
    rw [finish_snd] at h
    rw [finish_ok h]
    obtain ⟨a1, a2⟩ := delimC_sound h
    obtain ⟨b1, _, ⟨t, b2, rfl⟩, b3⟩ := hq.sound _ a1
    obtain ⟨c1, c2⟩ := delimC_sound b1
    obtain ⟨d1, d2⟩ := delimStr_sound c1
    obtain ⟨e1, e2⟩ := delimC_sound d1
    obtain ⟨f1, bl, f2, f3⟩ := ignoreSpaces_sound s
    refine ⟨f1.symm.trans e1, bl, [t], f2, .cons b2 .nil, ?_⟩
    rw [f3, e2, d2, c2, b3, a2]; simp [record_eq]
  unchanged R s h := by
    have e : read1 name rq R s = finish R (rq (((s.ignoreSpaces.delimC '[').delimStr name).delimC ' ')).1
      ((rq (((s.ignoreSpaces.delimC '[').delimStr name).delimC ' ')).2.delimC ']') := rfl
    rw [e] at h ⊢
    rw [finish_snd] at h
    simp [finish, h]

theorem engine2 (hp : Whole (Tup fp) rp) (hq : Whole (Tup fq) rq) :
    EngineReads name (fun v : π × σ => [fp v.1, fq v.2]) fun R s => read2 name rp rq R s where
  ok R v bl ts k hb h := by
    cases h with | @cons _ t _ ts ht h =>
    cases h with | @cons _ u _ us hu h =>
    cases h
    simp only [record_eq, List.map_cons, List.map_nil, tail_cons, tail_nil, List.append_nil, List.append_assoc, List.cons_append,
      List.nil_append]
    rw [read2, ignoreSpaces_ok bl hb _ not_blank]
    simp only [delimC_ok, delimStr_ok, hp.ok v.1 (tuple t) _ ⟨t, ht, rfl⟩, hq.ok v.2 (tuple u) (']' :: k) ⟨u, hu, rfl⟩]
    rfl
  sound R s h := by
    have e : read2 name rp rq R s =
      finish R ((rp (((s.ignoreSpaces.delimC '[').delimStr name).delimC ' ')).1,
        (rq ((rp (((s.ignoreSpaces.delimC '[').delimStr name).delimC ' ')).2.delimC ' ')).1)
      ((rq ((rp (((s.ignoreSpaces.delimC '[').delimStr name).delimC ' ')).2.delimC ' ')).2.delimC ']') := rfl
    simp only [e] at h ⊢
    rw [finish_snd] at h
    rw [finish_ok h]
    obtain ⟨a1, a2⟩ := delimC_sound h
    obtain ⟨b1, _, ⟨u, b2, rfl⟩, b3⟩ := hq.sound _ a1
    obtain ⟨x1, x2⟩ := delimC_sound b1
    obtain ⟨y1, _, ⟨t, y2, rfl⟩, y3⟩ := hp.sound _ x1
    obtain ⟨c1, c2⟩ := delimC_sound y1
    obtain ⟨d1, d2⟩ := delimStr_sound c1
    obtain ⟨e1, e2⟩ := delimC_sound d1
    obtain ⟨f1, bl, f2, f3⟩ := ignoreSpaces_sound s
    refine ⟨f1.symm.trans e1, bl, [t, u], f2, .cons y2 (.cons b2 .nil), ?_⟩
    rw [f3, e2, d2, c2, y3, x2, b3, a2]; simp [record_eq]
  unchanged R s h := by
    have e : read2 name rp rq R s =
      finish R ((rp (((s.ignoreSpaces.delimC '[').delimStr name).delimC ' ')).1,
        (rq ((rp (((s.ignoreSpaces.delimC '[').delimStr name).delimC ' ')).2.delimC ' ')).1)
      ((rq ((rp (((s.ignoreSpaces.delimC '[').delimStr name).delimC ' ')).2.delimC ' ')).2.delimC ']') := rfl
    rw [e] at h ⊢
    rw [finish_snd] at h
    simp [finish, h]

/-- the same for the object made of the parts -/
theorem EngineReads.map {α β : Type} {fs : α → List (List Field)} {rd : α → In → α × In} (h : EngineReads name fs rd)
    (mk : α → β) (un : β → α) (h1 : ∀ b, mk (un b) = b) (h2 : ∀ a, un (mk a) = a) :
    EngineReads name (fun b => fs (un b)) fun R s => (mk (rd (un R) s).1, (rd (un R) s).2) where
  ok R v bl ts k hb ht := by
    rw [h.ok (un R) (un v) bl ts k hb ht, h1]
  sound R s hf := by
    obtain ⟨a, bl, ts, b, c, d⟩ := h.sound (un R) s hf
    exact ⟨a, bl, ts, b, by rw [h2]; exact c, d⟩
  unchanged R s hf := by
    show mk _ = _
    rw [h.unchanged (un R) s hf, h1]

end engine

theorem reads_lcg (name : List Char) :
    EngineReads name (fun e : LCG64 => [[.unsigned 64 e.P.a, .unsigned 64 e.P.b], [.unsigned 64 e.r]]) (readLcg name) :=
  (engine2 (whole2 (fs := fun P : LCG64.Param => [.unsigned 64 P.a, .unsigned 64 P.b]) (reads_unsigned 64) (reads_unsigned 64)
      LCG64.Param.mk (·.a) (·.b) (fun _ => rfl) (fun _ _ => rfl) ⟨0, 0⟩)
    (whole1 (fs := fun r : BitVec 64 => [.unsigned 64 r]) (reads_unsigned 64) id id (fun _ => rfl) (fun _ => rfl) 0)).map
    (fun x => (⟨x.1, x.2⟩ : LCG64)) (fun e : LCG64 => (e.P, e.r)) (fun _ => rfl) (fun _ => rfl)

theorem whole_countParam (P : LCG64Count.Param) :
    Whole (Tup fun P : LCG64Count.Param => [.unsigned 64 P.a, .unsigned 64 P.b, .unsigned 64 P.inc]) (readCountParam P) :=
  whole3 (reads_unsigned 64) (reads_unsigned 64) (reads_unsigned 64)
    LCG64Count.Param.mk (·.a) (·.b) (·.inc) (fun _ => rfl) (fun _ _ _ => rfl) P

theorem whole_countStatus (S : BitVec 64 × BitVec 64) :
    Whole (Tup fun r : BitVec 64 × BitVec 64 => [.unsigned 64 r.1, .unsigned 64 r.2]) (readCountStatus S) :=
  whole2 (reads_unsigned 64) (reads_unsigned 64) Prod.mk (·.1) (·.2) (fun _ => rfl) (fun _ _ => rfl) S

theorem reads_count (name : List Char) :
    EngineReads name (fun e : LCG64Count => [[.unsigned 64 e.P.a, .unsigned 64 e.P.b, .unsigned 64 e.P.inc],
      [.unsigned 64 e.r, .unsigned 64 e.count]]) (readCount name) :=
  (engine2 (whole_countParam ⟨0, 0, 0⟩) (whole_countStatus (0, 0))).map
    (fun x => (⟨x.1, x.2.1, x.2.2⟩ : LCG64Count)) (fun e : LCG64Count => (e.P, (e.r, e.count))) (fun _ => rfl) (fun _ => rfl)

theorem reads_count128 (name : List Char) :
    EngineReads name (fun e : Count128 => [[.uint128 e.P.increment, .unsigned 64 e.P.a, .unsigned 64 e.P.b],
      [.uint128 e.r]]) (readCount128 name) :=
  (engine2 (whole3 (fs := fun P : Count128.Param => [.uint128 P.increment, .unsigned 64 P.a, .unsigned 64 P.b])
      reads_uint128 (reads_unsigned 64) (reads_unsigned 64)
      Count128.Param.mk (·.increment) (·.a) (·.b) (fun _ => rfl) (fun _ _ _ => rfl) ⟨0, 0, 0⟩)
    (whole1 (fs := fun r : BitVec 128 => [.uint128 r]) reads_uint128 id id (fun _ => rfl) (fun _ => rfl) 0)).map
    (fun x => (⟨x.1, x.2⟩ : Count128)) (fun e : Count128 => (e.P, e.r)) (fun _ => rfl) (fun _ => rfl)

theorem reads_minstd (name : List Char) :
    EngineReads name (fun e : Minstd => [[.unsigned 32 e.r]]) (readMinstd name) :=
  (engine1 (whole1 (fs := fun r : BitVec 32 => [.unsigned 32 r]) (reads_unsigned 32) id id (fun _ => rfl) (fun _ => rfl) 1)).map
    (fun x => (⟨x⟩ : Minstd)) (fun e : Minstd => e.r) (fun _ => rfl) (fun _ => rfl)

theorem reads_xoshiro (name : List Char) :
    EngineReads name (fun e : Xoshiro => [[.unsigned 64 e.r0, .unsigned 64 e.r1, .unsigned 64 e.r2, .unsigned 64 e.r3]])
      (readXoshiro name) :=
  engine1 (whole4 (fs := fun e : Xoshiro => [.unsigned 64 e.r0, .unsigned 64 e.r1, .unsigned 64 e.r2, .unsigned 64 e.r3])
    (reads_unsigned 64) (reads_unsigned 64) (reads_unsigned 64) (reads_unsigned 64)
    Xoshiro.mk (·.r0) (·.r1) (·.r2) (·.r3) (fun _ => rfl) (fun _ _ _ _ => rfl) {})

theorem reads_mrg (n : Nat) (name : List Char) :
    EngineReads name (fun e : MRG n => [List.ofFn fun i => .int (e.a i), List.ofFn fun i => .int (e.r i)]) (readMrg name) :=
  (engine2 (whole_mrg n fun _ => 0) (whole_mrg n fun _ => 0)).map
    (fun x => (⟨x.1, x.2⟩ : MRG n)) (fun e : MRG n => (e.a, e.r)) (fun _ => rfl) (fun _ => rfl)

theorem reads_lagfib (P : LagFib.Params) (w : Nat) (name : List Char) :
    EngineReads name (fun e : LagFib P w => [.unsigned 32 e.index :: List.ofFn fun i => .unsigned w (e.r i)])
      (readLagfib name) :=
  engine1 (whole_lagfib P w {})

theorem reads_mt {w : Nat} (P : MT.Params w) (hN : 0 < P.N) (name : List Char) :
    EngineReads name (fun e : MT P => [[], .int e.mti :: List.ofFn fun i => .unsigned w (e.mt i)]) (readMt name) :=
  (engine2 (whole0 (fs := fun _ : Unit => []) (fun _ => rfl) () (fun _ => rfl)) (whole_mt P hN {})).map
    (fun x => (x.2 : MT P)) (fun e : MT P => ((), e)) (fun _ => rfl) (fun _ => rfl)

theorem engineReads (E : Engine) : EngineReads E.name (fields E) E.read := by
  cases E with
  | lcg64 => exact reads_lcg _
  | lcg64Shift => exact reads_lcg _
  | lcg64CountShift => exact reads_count _
  | count128LcgShift => exact reads_count128 _
  | minstd => exact reads_minstd _
  | xoshiro256plus => exact reads_xoshiro _
  | mrg k => exact reads_mrg _ _
  | yarn k => exact reads_mrg _ _
  | lagfib P w => exact reads_lagfib P w _
  | mt19937 => exact reads_mt MT.mt19937 (by decide) _
  | mt19937_64 => exact reads_mt MT.mt19937_64 (by decide) _

end Trng.Stream
