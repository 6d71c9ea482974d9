import Verif.Proofs.StreamEngines

namespace Trng.Stream
open In StreamSpec Spec

theorem outSep_eq {α : Type} (out : α → List Char) (l : List α) : outSep out l = join (l.map out) := by
  induction l with
  | nil => rfl
  | cons x l ih =>
    rw [outSep, ih, List.map_cons, join_cons]
    cases l with
    | nil => simp
    | cons y l => simp [join_cons]

theorem outRange_eq {α : Type} (out : α → List Char) (l : List α) : outRange out l = join (l.map out) := by
  induction l with
  | nil => rfl
  | cons x l ih =>
    rw [outRange, ih, List.map_cons, join_cons]
    cases l with
    | nil => simp
    | cons y l => simp [join_cons]

theorem outPre_eq {α : Type} (out : α → List Char) (l : List α) : outPre out l = tail (l.map out) := by
  simp [outPre, tail, List.flatMap_map]

theorem forall₂_out {α : Type} {F : α → Field} {out : α → List Char} {l : List α} (h : ∀ x ∈ l, (F x).Text (out x)) :
    List.Forall₂ Field.Text (l.map F) (l.map out) := by
  induction l with
  | nil => exact .nil
  | cons x l ih => exact .cons (h x (by simp)) (ih fun y hy => h y (by simp [hy]))

theorem outOpen_le {width : Nat} (h : width ≤ 1) (fill : Char) : outOpen width fill = ['['] := by
  simp [outOpen, show width - 1 = 0 by omega]

theorem print1_eq {width : Nat} (h : width ≤ 1) (fill : Char) (name : List Char) (ts) :
    print1 width fill name (tuple ts) = record name [ts] := by
  simp [print1, outOpen_le h, record_eq]

theorem print2_eq {width : Nat} (h : width ≤ 1) (fill : Char) (name : List Char) (ts us) :
    print2 width fill name (tuple ts) (tuple us) = record name [ts, us] := by
  simp [print2, outOpen_le h, record_eq]

theorem text_mrg {n : Nat} {a : Fin n → Int} (h : ∀ i, -2 ^ 31 ≤ a i ∧ a i < 2 ^ 31) :
    ∃ ts, List.Forall₂ Field.Text (List.ofFn fun i => Field.int (a i)) ts ∧ mrgTuple a = tuple ts := by
  refine ⟨(List.ofFn a).map decimalInt, ?_, by simp [mrgTuple, tuple_eq, outSep_eq]⟩
  rw [ofFn_map fun x => Field.int x]
  refine forall₂_out fun x hx => ?_
  obtain ⟨i, rfl⟩ := (List.mem_ofFn' _ _).1 hx
  exact text_int (h i).1 (h i).2

theorem text_lcg {width : Nat} (hw : width ≤ 1) (fill : Char) (name : List Char) (e : LCG64) :
    ∃ ts, List.Forall₂ (List.Forall₂ Field.Text) [[.unsigned 64 e.P.a, .unsigned 64 e.P.b], [.unsigned 64 e.r]] ts ∧
      printLcg width fill name e = record name ts := by
  refine ⟨[[outU e.P.a, outU e.P.b], [outU e.r]],
    .cons (.cons (text_unsigned _) (.cons (text_unsigned _) .nil)) (.cons (.cons (text_unsigned _) .nil) .nil), ?_⟩
  rw [← print2_eq hw fill]
  simp [printLcg, lcgParam, lcgStatus, tuple_eq, join_cons]

theorem text_mrgEngine {width : Nat} (hw : width ≤ 1) (fill : Char) (name : List Char) {n : Nat} (e : MRG n)
    (h1 : ∀ i, -2 ^ 31 ≤ e.a i ∧ e.a i < 2 ^ 31) (h2 : ∀ i, -2 ^ 31 ≤ e.r i ∧ e.r i < 2 ^ 31) :
    ∃ ts, List.Forall₂ (List.Forall₂ Field.Text)
        [List.ofFn fun i => .int (e.a i), List.ofFn fun i => .int (e.r i)] ts ∧
      printMrg width fill name e = record name ts := by
  obtain ⟨ta, a1, a2⟩ := text_mrg h1
  obtain ⟨tr, r1, r2⟩ := text_mrg h2
  exact ⟨[ta, tr], .cons a1 (.cons r1 .nil), by rw [← print2_eq hw fill, printMrg, a2, r2]⟩

theorem text_mt {width : Nat} (hw : width ≤ 1) (fill : Char) (name : List Char) {w : Nat} {P : MT.Params w} (hN : 0 < P.N)
    (e : MT P) (h : -2 ^ 31 ≤ e.mti ∧ e.mti < 2 ^ 31) :
    ∃ ts, List.Forall₂ (List.Forall₂ Field.Text) [[], .int e.mti :: List.ofFn fun i => .unsigned w (e.mt i)] ts ∧
      printMt width fill name e = record name ts := by
  refine ⟨[[], decimalInt e.mti :: (List.ofFn e.mt).map outU], .cons .nil (.cons (.cons (text_int h.1 h.2) ?_) .nil), ?_⟩
  · rw [ofFn_map fun x => Field.unsigned w x]
    exact forall₂_out fun x _ => text_unsigned x
  · rw [← print2_eq hw fill]
    have e1 : tuple [] = ['(', ')'] := rfl
    have e2 : mtStatus e = tuple (decimalInt e.mti :: (List.ofFn e.mt).map outU) := by
      have hl : (List.ofFn e.mt).length = P.N := List.length_ofFn
      simp only [mtStatus, tuple_eq, outRange_eq, join_cons]
      cases h : List.ofFn e.mt with
      | nil => rw [h] at hl; simp at hl; omega
      | cons x l => simp [join_cons]
    rw [printMt, e1, e2]

/-- what is written is a text for the object -/
theorem text_print (E : Engine) (e : E.State) (he : Fits E e) {width : Nat} (hw : width ≤ 1) (fill : Char) :
    Text E e (E.print width fill e) := by
  cases E with
  | lcg64 => exact text_lcg hw fill _ e
  | lcg64Shift => exact text_lcg hw fill _ e
  | lcg64CountShift =>
    let e : LCG64Count := e
    refine ⟨[[outU e.P.a, outU e.P.b, outU e.P.inc], [outU e.r, outU e.count]],
      .cons (.cons (text_unsigned _) (.cons (text_unsigned _) (.cons (text_unsigned _) .nil)))
        (.cons (.cons (text_unsigned _) (.cons (text_unsigned _) .nil)) .nil), ?_⟩
    rw [← print2_eq hw fill]
    simp [Engine.print, printCount, countParam, countStatus, tuple_eq, join_cons, e]
  | count128LcgShift =>
    let e : Count128 := e
    refine ⟨[[outU128 e.P.increment, outU e.P.a, outU e.P.b], [outU128 e.r]],
      .cons (.cons (text_uint128 _) (.cons (text_unsigned _) (.cons (text_unsigned _) .nil)))
        (.cons (.cons (text_uint128 _) .nil) .nil), ?_⟩
    rw [← print2_eq hw fill]
    simp [Engine.print, printCount128, count128Param, count128Status, tuple_eq, join_cons, e]
  | minstd =>
    let e : Minstd := e
    refine ⟨[[outU e.r]], .cons (.cons (text_unsigned _) .nil) .nil, ?_⟩
    rw [← print1_eq hw fill]
    simp [Engine.print, printMinstd, minstdStatus, tuple_eq, join_cons, e]
  | xoshiro256plus =>
    let e : Xoshiro := e
    refine ⟨[[outU e.r0, outU e.r1, outU e.r2, outU e.r3]],
      .cons (.cons (text_unsigned _) (.cons (text_unsigned _) (.cons (text_unsigned _) (.cons (text_unsigned _) .nil)))) .nil, ?_⟩
    rw [← print1_eq hw fill]
    simp [Engine.print, printXoshiro, xoshiroStatus, tuple_eq, join_cons, e]
  | mrg k =>
    let e : MRG k.order := e
    exact text_mrgEngine hw fill _ e
      (fun i => he (List.ofFn fun i => .int (e.a i)) (by simp [fields, e]) (.int (e.a i)) (by simp) _ rfl)
      (fun i => he (List.ofFn fun i => .int (e.r i)) (by simp [fields, e]) (.int (e.r i)) (by simp) _ rfl)
  | yarn k =>
    let e : MRG k.order := e
    exact text_mrgEngine hw fill _ e
      (fun i => he (List.ofFn fun i => .int (e.a i)) (by simp [fields, e]) (.int (e.a i)) (by simp) _ rfl)
      (fun i => he (List.ofFn fun i => .int (e.r i)) (by simp [fields, e]) (.int (e.r i)) (by simp) _ rfl)
  | lagfib P w =>
    let e : LagFib P w := e
    refine ⟨[outU e.index :: (List.ofFn e.r).map outU], .cons (.cons (text_unsigned _) ?_) .nil, ?_⟩
    · rw [ofFn_map fun x => Field.unsigned w x]
      exact forall₂_out fun x _ => text_unsigned x
    · rw [← print1_eq hw fill]
      simp [Engine.print, printLagfib, lagfibStatus, tuple_eq, join_cons, outPre_eq, e]
  | mt19937 =>
    let e : MT MT.mt19937 := e
    exact text_mt hw fill _ (by decide) e (he _ (List.mem_cons_of_mem _ (List.mem_singleton.2 rfl)) (.int e.mti) List.mem_cons_self _ rfl)
  | mt19937_64 =>
    let e : MT MT.mt19937_64 := e
    exact text_mt hw fill _ (by decide) e (he _ (List.mem_cons_of_mem _ (List.mem_singleton.2 rfl)) (.int e.mti) List.mem_cons_self _ rfl)

/-! ### Characters of the texts -/

theorem digit_char {c : Char} (h : IsDigit 10 c) : c ≠ ']' ∧ c ≠ ' ' := by
  constructor <;> rintro rfl <;> revert h <;> decide

theorem field_close {f : Field} {t : List Char} (h : f.Text t) : ']' ∉ t := by
  cases f with
  | unsigned w v =>
    obtain ⟨s, ds, rfl, _, hd, _, hs⟩ := h
    rw [List.mem_append]
    rintro (hm | hm)
    · rcases hs with ⟨rfl | rfl, _⟩ | ⟨rfl, _⟩ <;> simp at hm
    · exact (digit_char (hd _ hm)).1 rfl
  | int v =>
    obtain ⟨s, ds, rfl, _, hd, _, _, hs⟩ := h
    rw [List.mem_append]
    rintro (hm | hm)
    · rcases hs with ⟨rfl | rfl, _⟩ | ⟨rfl, _⟩ <;> simp at hm
    · exact (digit_char (hd _ hm)).1 rfl
  | uint128 v =>
    obtain ⟨s, ds, rfl, hw, _, hd, _⟩ := h
    rw [List.mem_append]
    rintro (hm | hm)
    · have := hw _ hm
      revert this; unfold White; decide
    · exact (digit_char (hd _ hm)).1 rfl

theorem tail_close {ts : List (List Char)} (h : ∀ t ∈ ts, ']' ∉ t) : ']' ∉ tail ts := by
  induction ts with
  | nil => simp
  | cons t ts ih =>
    rw [tail_cons]
    simp only [List.mem_cons, List.mem_append, not_or]
    exact ⟨by decide, h t (by simp), ih fun t ht => h t (by simp [ht])⟩

theorem tuple_close {fs : List Field} {ts : List (List Char)} (h : List.Forall₂ Field.Text fs ts) : ']' ∉ tuple ts := by
  have ht : ∀ t ∈ ts, ']' ∉ t := by
    intro t ht
    induction h with
    | nil => simp at ht
    | cons h1 _ ih =>
      rcases List.mem_cons.1 ht with rfl | ht
      · exact field_close h1
      · exact ih ht
  have hj : ']' ∉ join ts := by
    cases ts with
    | nil => simp
    | cons t ts =>
      rw [join_cons, List.mem_append, not_or]
      exact ⟨ht t (by simp), tail_close fun t h => ht t (by simp [h])⟩
  rw [tuple_eq]
  simp [hj]

theorem tuples_close {fs : List (List Field)} {ts} (h : List.Forall₂ (List.Forall₂ Field.Text) fs ts) :
    ∀ t ∈ ts, ']' ∉ tuple t := by
  induction h with
  | nil => simp
  | cons h1 _ ih =>
    intro t ht
    rcases List.mem_cons.1 ht with rfl | ht
    · exact tuple_close h1
    · exact ih t ht

theorem decimal_close (n : Nat) : ∀ c ∈ decimal n, c ≠ ']' ∧ c ≠ ' ' :=
  fun c hc => digit_char ((decimal_spec n).2.1 c hc)

theorem stem_close (o : LagFib.Op) :
    ∀ c ∈ (match o with | .xor => "xor".toList | .plus => "plus".toList), c ≠ ']' ∧ c ≠ ' ' := by
  cases o <;> decide

theorem lagfibName_close {stem : List Char} (h : ∀ c ∈ stem, c ≠ ']' ∧ c ≠ ' ') (P : LagFib.Params) (w : Nat) :
    ∀ c ∈ lagfibName stem P w, c ≠ ']' ∧ c ≠ ' ' := by
  rw [lagfibName]
  simp only [List.forall_mem_append]
  refine ⟨⟨⟨h, by decide⟩, decimal_close _⟩, fun c hc => ?_⟩
  obtain ⟨l, _, hc⟩ := List.mem_flatMap.1 hc
  cases List.mem_cons.1 hc with
  | inl h => rw [h]; decide
  | inr h => exact decimal_close _ c h

theorem lagfib_close : ∀ c ∈ "lagfib".toList, c ≠ ']' ∧ c ≠ ' ' := by decide

theorem name_close (E : Engine) : ∀ c ∈ E.name, c ≠ ']' ∧ c ≠ ' ' := by
  cases E with
  | lagfib P w =>
    refine lagfibName_close ?_ P w
    rw [List.forall_mem_append, List.forall_mem_append]
    exact ⟨⟨lagfib_close, decimal_close _⟩, stem_close _⟩
  | mrg k => cases k <;> decide
  | yarn k => cases k <;> decide
  | _ => decide

/-- the closing bracket is the last character -/
theorem text_close {E : Engine} {e : E.State} {t : List Char} (h : Text E e t) : ∃ t', t = t' ++ [']'] ∧ ']' ∉ t' := by
  obtain ⟨ts, h, rfl⟩ := h
  refine ⟨'[' :: (E.name ++ tail (ts.map tuple)), by rw [record_eq]; simp, ?_⟩
  simp only [List.mem_cons, List.mem_append, not_or]
  refine ⟨by decide, fun hm => (name_close E _ hm).1 rfl, tail_close ?_⟩
  intro t ht
  obtain ⟨us, hu, rfl⟩ := List.mem_map.1 ht
  exact tuples_close h us hu

/-- a text begins with the bracket, the name and a blank -/
theorem text_open {E : Engine} {e : E.State} {t : List Char} (h : Text E e t) : ∃ k, t = '[' :: (E.name ++ ' ' :: k) := by
  obtain ⟨ts, h, rfl⟩ := h
  rw [record_eq]
  cases ts with
  | nil => cases E <;> cases h
  | cons u ts => exact ⟨_, by rw [List.map_cons, tail_cons]; rfl⟩

/-- the bracket after blanks -/
theorem blanks_unique {bl bl' k k' : List Char} (h1 : ∀ c ∈ bl, Blank c) (h2 : ∀ c ∈ bl', Blank c)
    (h : bl ++ '[' :: k = bl' ++ '[' :: k') : k = k' := by
  induction bl generalizing bl' with
  | nil =>
    cases bl' with
    | nil => simpa using h
    | cons c bl' =>
      simp only [List.nil_append, List.cons_append, List.cons.injEq] at h
      exact absurd (h2 c (by simp)) (by rw [← h.1]; exact not_blank)
  | cons b bl ih =>
    cases bl' with
    | nil =>
      simp only [List.nil_append, List.cons_append, List.cons.injEq] at h
      exact absurd (h1 b (by simp)) (by rw [h.1]; exact not_blank)
    | cons c bl' =>
      simp only [List.cons_append, List.cons.injEq] at h
      exact ih (fun c hc => h1 c (by simp [hc])) (fun c hc => h2 c (by simp [hc])) h.2

/-- names followed by a blank -/
theorem names_unique {a b k k' : List Char} (ha : ∀ c ∈ a, c ≠ ' ') (hb : ∀ c ∈ b, c ≠ ' ')
    (h : a ++ ' ' :: k = b ++ ' ' :: k') : a = b := by
  induction a generalizing b with
  | nil =>
    cases b with
    | nil => rfl
    | cons c b =>
      simp only [List.nil_append, List.cons_append, List.cons.injEq] at h
      exact absurd h.1.symm (hb c (by simp))
  | cons x a ih =>
    cases b with
    | nil =>
      simp only [List.nil_append, List.cons_append, List.cons.injEq] at h
      exact absurd h.1 (ha x (by simp))
    | cons c b =>
      simp only [List.cons_append, List.cons.injEq] at h
      rw [h.1, ih (fun c hc => ha c (by simp [hc])) (fun c hc => hb c (by simp [hc])) h.2]

end Trng.Stream
