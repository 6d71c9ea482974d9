import Verif.Spec.IsingMain
import Verif.Proofs.Stream
/-! Lemmas for C109. -/
namespace Trng.IsingMain

theorem lastValue_nil (name : List Char) : lastValue name [] = none := rfl

theorem lastValue_cons (name : List Char) (p) (ps) : lastValue name (p :: ps) = (lastValue name ps).or (if p.1 = name then some p.2 else none) := by
  rw [lastValue, lastValue, List.reverse_cons, List.find?_append]
  cases ps.reverse.find? (fun p => decide (p.1 = name)) with
  | none => by_cases hp : p.1 = name <;> simp [hp]
  | some q => rfl

theorem d12 : "--runs".toList ≠ "--gen".toList := by decide
theorem d13 : "--split".toList ≠ "--gen".toList := by decide
theorem d14 : "--size".toList ≠ "--gen".toList := by decide
theorem d23 : "--split".toList ≠ "--runs".toList := by decide
theorem d24 : "--size".toList ≠ "--runs".toList := by decide
theorem d34 : "--size".toList ≠ "--split".toList := by decide

theorem parse_gen (v rest) (o : Opts) : parse ("--gen".toList :: v :: rest) o = parse rest { o with gen := v } := by
  rw [parse, if_pos rfl]

theorem parse_runs {v} (rest) (o : Opts) {n} (h : atoi v = some n) : parse ("--runs".toList :: v :: rest) o = parse rest { o with runs := n } := by
  rw [parse, if_neg d12, if_pos rfl]
  show (match atoi v with | none => Parsed.undefined | some n => parse rest { o with runs := n }) = _
  rw [h]

theorem parse_split {v} (rest) (o : Opts) {n} (h : atoi v = some n) : parse ("--split".toList :: v :: rest) o = parse rest { o with split := n } := by
  rw [parse, if_neg d13, if_neg d23, if_pos rfl]
  show (match atoi v with | none => Parsed.undefined | some n => parse rest { o with split := n }) = _
  rw [h]

theorem parse_size {v} (rest) (o : Opts) {n} (h : atoi v = some n) : parse ("--size".toList :: v :: rest) o = parse rest { o with L := n } := by
  rw [parse, if_neg d14, if_neg d24, if_neg d34, if_pos rfl]
  show (match atoi v with | none => Parsed.undefined | some n => parse rest { o with L := n }) = _
  rw [h]

theorem getD_or {β : Type} (l : Option β) (v d : β) : (l.or (some v)).getD d = l.getD v := by cases l <;> rfl

theorem bind_or {β γ : Type} {f : β → Option γ} {l : Option β} {v : β} {n d : γ} (h : f v = some n) (hl : ∀ s, l = some s → (f s).isSome) :
    ((l.or (some v)).bind f).getD d = (l.bind f).getD n := by
  rcases l with _ | s
  · show (f v).getD d = n
    rw [h]; rfl
  · obtain ⟨m, hm⟩ := Option.isSome_iff_exists.1 (hl s rfl)
    show (f s).getD d = (f s).getD n
    rw [hm]; rfl

theorem parse_pairs (ps : List (List Char × List Char)) : ∀ o : Opts,
    (∀ p ∈ ps, IsOption p.1 ∧ (p.1 ≠ "--gen".toList → (atoi p.2).isSome)) →
    parse (commandLine ps) o = .ok ⟨(lastValue "--gen".toList ps).getD o.gen, ((lastValue "--runs".toList ps).bind atoi).getD o.runs,
      ((lastValue "--split".toList ps).bind atoi).getD o.split, ((lastValue "--size".toList ps).bind atoi).getD o.L⟩ := by
  induction ps with
  | nil => intro o _; rfl
  | cons p ps ih =>
    intro o h
    obtain ⟨a, v⟩ := p
    obtain ⟨h1, h2⟩ := h (a, v) List.mem_cons_self
    have ih := fun o => ih o fun p hp => h p (List.mem_cons_of_mem _ hp)
    have hsome : ∀ {name : List Char}, name ≠ "--gen".toList → ∀ s, lastValue name ps = some s → (atoi s).isSome := by
      intro name hn s hs
      rw [lastValue, Option.map_eq_some_iff] at hs
      obtain ⟨q, hq, rfl⟩ := hs
      have hm := List.mem_of_find?_eq_some hq
      have he := List.find?_some hq
      rw [decide_eq_true_eq] at he
      exact (h q (List.mem_cons_of_mem _ (List.mem_reverse.1 hm))).2 (by rw [he]; exact hn)
    have e : commandLine ((a, v) :: ps) = a :: v :: commandLine ps := rfl
    rw [e, lastValue_cons, lastValue_cons, lastValue_cons, lastValue_cons]
    change IsOption a at h1
    change a ≠ _ → (atoi v).isSome at h2
    change _ = Parsed.ok ⟨((lastValue "--gen".toList ps).or (if a = "--gen".toList then some v else none)).getD o.gen,
      (((lastValue "--runs".toList ps).or (if a = "--runs".toList then some v else none)).bind atoi).getD o.runs,
      (((lastValue "--split".toList ps).or (if a = "--split".toList then some v else none)).bind atoi).getD o.split,
      (((lastValue "--size".toList ps).or (if a = "--size".toList then some v else none)).bind atoi).getD o.L⟩
    rcases h1 with h1 | h1 | h1 | h1 <;> subst h1
    · rw [parse_gen, ih, if_pos rfl, if_neg d12.symm, if_neg d13.symm, if_neg d14.symm, Option.or_none, Option.or_none, Option.or_none, getD_or]
    · obtain ⟨n, hn⟩ := Option.isSome_iff_exists.1 (h2 d12)
      rw [parse_runs _ _ hn, ih, if_pos rfl, if_neg d12, if_neg d23.symm, if_neg d24.symm, Option.or_none, Option.or_none, Option.or_none,
        bind_or hn (hsome d12)]
    · obtain ⟨n, hn⟩ := Option.isSome_iff_exists.1 (h2 d13)
      rw [parse_split _ _ hn, ih, if_pos rfl, if_neg d13, if_neg d23, if_neg d34.symm, Option.or_none, Option.or_none, Option.or_none,
        bind_or hn (hsome d13)]
    · obtain ⟨n, hn⟩ := Option.isSome_iff_exists.1 (h2 d14)
      rw [parse_size _ _ hn, ih, if_pos rfl, if_neg d14, if_neg d24, if_neg d34, Option.or_none, Option.or_none, Option.or_none,
        bind_or hn (hsome d14)]

theorem pairs_of_parse : ∀ (m : Nat) (args : List (List Char)) (o o' : Opts), args.length ≤ m → parse args o = .ok o' →
    ∃ ps, args = commandLine ps ∧ ∀ p ∈ ps, IsOption p.1 ∧ (p.1 ≠ "--gen".toList → (atoi p.2).isSome) := by
  intro m
  induction m with
  | zero =>
    intro args o o' hm _
    exact ⟨[], List.length_eq_zero_iff.1 (by omega), by simp⟩
  | succ m ih =>
    intro args o o' hm h
    match args with
    | [] => exact ⟨[], rfl, by simp⟩
    | [a] =>
      exfalso
      rw [parse] at h
      split_ifs at h <;> simp at h
    | a :: v :: rest =>
      simp only [List.length_cons] at hm
      have step : ∀ o, parse rest o = .ok o' → IsOption a → (a ≠ "--gen".toList → (atoi v).isSome) →
          ∃ ps, a :: v :: rest = commandLine ps ∧ ∀ p ∈ ps, IsOption p.1 ∧ (p.1 ≠ "--gen".toList → (atoi p.2).isSome) := by
        intro o h h1 h2
        obtain ⟨ps, rfl, h3⟩ := ih rest o o' (by omega) h
        refine ⟨(a, v) :: ps, rfl, fun p hp => ?_⟩
        rcases List.mem_cons.1 hp with rfl | hp
        · exact ⟨h1, h2⟩
        · exact h3 p hp
      rw [parse] at h
      split_ifs at h with h1 h2 h3 h4
      · exact step _ h (Or.inl h1) fun hc => absurd h1 hc
      · rcases hv : atoi v with _ | n
        · rw [hv] at h; cases h
        · rw [hv] at h; exact step _ h (Or.inr (Or.inl h2)) fun _ => by rw [hv]; rfl
      · rcases hv : atoi v with _ | n
        · rw [hv] at h; cases h
        · rw [hv] at h; exact step _ h (Or.inr (Or.inr (Or.inl h3))) fun _ => by rw [hv]; rfl
      · rcases hv : atoi v with _ | n
        · rw [hv] at h; cases h
        · rw [hv] at h; exact step _ h (Or.inr (Or.inr (Or.inr h4))) fun _ => by rw [hv]; rfl

theorem leading_eq (t : List Char) : ∀ n, (∀ c ∈ t, Spec.IsDigit 10 c) → leading t n = t.foldl (fun v c => v * 10 + Spec.digitVal c) n := by
  induction t with
  | nil => intro n _; rfl
  | cons c t ih =>
    intro n h
    have hc : 48 ≤ c.toNat ∧ c.toNat ≤ 57 := by
      have := h c (by simp)
      rw [Spec.IsDigit, Spec.digitVal] at this
      split_ifs at this with h1 <;> first | exact h1 | omega
    rw [leading, if_pos hc, ih _ fun c hc => h c (by simp [hc]), List.foldl_cons]
    congr 1
    rw [Spec.digitVal, if_pos hc]
    ring

theorem blocks_none (o : Opts) (hs : o.split % 2 ^ 32 ≠ 0) : ∀ (es : List (List Char × Bool)) (done : List Call), (∀ e ∈ es, o.gen ≠ e.1) →
    blocks o es done = .ended done := by
  intro es
  induction es with
  | nil => intro done _; rfl
  | cons e es ih =>
    intro done h
    rw [blocks, if_neg (fun hc => hs hc.2), if_neg (h e (by simp))]
    exact ih done fun e he => h e (by simp [he])

theorem blocks_one (o : Opts) (hs : o.split % 2 ^ 32 ≠ 0) (hL : o.L ∈ sizes) (hr : 2 * o.runs ≤ 2 ^ 31 - 1) : ∀ (es : List (List Char × Bool)),
    (es.map Prod.fst).Nodup → ∀ b, (o.gen, b) ∈ es →
    blocks o es [] = .ended [⟨o.gen, if b then some (o.split % 2 ^ 32).toNat else none, o.runs, o.L⟩] := by
  intro es
  induction es with
  | nil => intro _ b h; simp at h
  | cons e es ih =>
    intro hn b h
    rw [List.map_cons, List.nodup_cons] at hn
    rcases List.mem_cons.1 h with h | h
    · subst h
      rw [blocks, if_neg (fun hc => hs hc.2), if_pos rfl, if_pos hL, if_pos hr]
      rw [blocks_none o hs]
      · rfl
      · intro e he hc
        exact hn.1 (List.mem_map.2 ⟨e, he, hc.symm⟩)
    · rw [blocks, if_neg (fun hc => hs hc.2), if_neg]
      · exact ih hn.2 b h
      · intro hc
        exact hn.1 (List.mem_map.2 ⟨_, h, hc⟩)

/-! ### the report -/

theorem set?_at {β : Type} (x : List β) (a b c : β) : Discrete.set? (x ++ [a, b]) x.length c = some (x ++ [c, b]) := by
  rw [Discrete.set?, if_pos (by simp)]
  simp

theorem set?_at' {β : Type} (x : List β) (a b c : β) : Discrete.set? (x ++ [a, b]) (x.length + 1) c = some (x ++ [a, c]) := by
  rw [Discrete.set?, if_pos (by simp)]
  simp [List.set_append_right]

theorem get_n {β : Type} (x : List β) (a b : β) : (x ++ [a, b])[x.length]? = some a := by simp

theorem get_n' {β : Type} (x : List β) (a b : β) : (x ++ [a, b])[x.length + 1]? = some b := by
  rw [List.getElem?_append_right (by omega)]; simp

variable {α : Type} [Field α]

theorem means_eq (x : List α) (b : α) : ∀ (k j : Nat) (a : α), j + k = x.length →
    means x.length k j (x ++ [a, b]) = some (x ++ [a + ((x.drop j).map fun v => v / (x.length : α)).sum, b]) := by
  intro k
  induction k with
  | zero => intro j a h; rw [means, List.drop_eq_nil_of_le (by omega)]; simp
  | succ k ih =>
    intro j a h
    have hj : j < x.length := by omega
    rw [means, get_n, List.getElem?_append_left hj, List.getElem?_eq_getElem hj]
    simp only [Option.bind_eq_bind, Option.bind_some]
    rw [set?_at, Option.bind_some, ih (j + 1) _ (by omega), List.drop_eq_getElem_cons hj]
    rw [List.map_cons, List.sum_cons, add_assoc]

theorem squares_eq (x : List α) (a : α) : ∀ (k j : Nat) (b : α), j + k = x.length →
    squares x.length k j (x ++ [a, b]) = some (x ++ [a, b + ((x.drop j).map fun v => (v - a) ^ 2).sum]) := by
  intro k
  induction k with
  | zero => intro j a h; rw [squares, List.drop_eq_nil_of_le (by omega)]; simp
  | succ k ih =>
    intro j b h
    have hj : j < x.length := by omega
    rw [squares, get_n, get_n', List.getElem?_append_left hj, List.getElem?_eq_getElem hj]
    simp only [Option.bind_eq_bind, Option.bind_some]
    rw [set?_at', Option.bind_some, ih (j + 1) _ (by omega), List.drop_eq_getElem_cons hj]
    rw [List.map_cons, List.sum_cons, ← add_assoc, sq]

theorem sum_div' (x : List α) (c : α) : (x.map fun v => v / c).sum = x.sum / c := by
  induction x with
  | nil => simp
  | cons v x ih => rw [List.map_cons, List.sum_cons, List.sum_cons, ih, add_div]

theorem output_eq (sqrt : α → α) (x : List α) (a b : α) :
    output sqrt x.length (x ++ [a, b]) = some (x ++ [x.sum / x.length,
      sqrt ((x.map fun v => (v - x.sum / x.length) ^ 2).sum / (((x.length : α) - 1) * x.length))]) := by
  rw [output, set?_at]
  simp only [Option.bind_eq_bind, Option.bind_some]
  rw [set?_at', Option.bind_some, means_eq x _ _ _ _ (by omega), Option.bind_some, squares_eq x _ _ _ _ (by omega), Option.bind_some, get_n',
    Option.bind_some, set?_at', Option.bind_some, get_n', Option.bind_some, set?_at', List.drop_zero, sum_div', zero_add, zero_add]

end Trng.IsingMain
