import Verif.Proofs.IsingMain

/-! Property C109: the command line and the report of examples/Ising_model.cc. -/
namespace Trng.Props
open IsingMain Spec Stream

/-- C109: the arguments are accepted exactly if they are pairs of an option and a value, the values of all but `--gen` being numbers that fit
into `int`; the options may come in any order, the last value of each counts, and the others are empty or 0. -/
theorem C109_options (args : List (List Char)) (o : Opts) :
    parse args .init = .ok o ↔ ∃ ps, args = commandLine ps ∧ (∀ p ∈ ps, IsOption p.1 ∧ (p.1 ≠ "--gen".toList → (atoi p.2).isSome)) ∧
      o.gen = (lastValue "--gen".toList ps).getD [] ∧ o.runs = ((lastValue "--runs".toList ps).bind atoi).getD 0 ∧
      o.split = ((lastValue "--split".toList ps).bind atoi).getD 0 ∧ o.L = ((lastValue "--size".toList ps).bind atoi).getD 0 := by
  constructor
  · intro h
    obtain ⟨ps, rfl, hp⟩ := pairs_of_parse _ args _ _ le_rfl h
    rw [parse_pairs ps _ hp] at h
    cases h
    exact ⟨ps, rfl, hp, rfl, rfl, rfl, rfl⟩
  · rintro ⟨ps, rfl, hp, h1, h2, h3, h4⟩
    rw [parse_pairs ps _ hp]
    obtain ⟨a, b, c, d⟩ := o
    simp only at h1 h2 h3 h4
    subst h1 h2 h3 h4
    rfl

example : parse ["--size".toList, "16".toList, "--gen".toList, "yarn3".toList, "--size".toList, "8".toList, "--split".toList, "2".toList] .init =
    .ok ⟨"yarn3".toList, 0, 2, 8⟩ := by decide +kernel

/-- C109: numbers are read as they are written. -/
theorem C109_numbers {n : ℤ} (h1 : -2 ^ 31 ≤ n) (h2 : n ≤ 2 ^ 31 - 1) : atoi (decimalInt n) = some n := by
  obtain ⟨g1, g2, g3⟩ := decimal_spec n.natAbs
  have hl : leading (decimal n.natAbs) 0 = n.natAbs := by rw [leading_eq _ _ g2]; exact g3
  obtain ⟨c, t, hct⟩ := List.exists_cons_of_ne_nil g1
  have hc : 48 ≤ c.toNat ∧ c.toNat ≤ 57 := by
    have := g2 c (by rw [hct]; exact List.mem_cons_self)
    rw [IsDigit, digitVal] at this
    split_ifs at this with h <;> first | exact h | omega
  have hsp : isSpace c = false := by
    rw [isSpace, Bool.or_eq_false_iff]
    constructor
    · exact decide_eq_false (by omega)
    · rw [Bool.and_eq_false_iff]; exact Or.inr (decide_eq_false (by omega))
  rcases lt_or_ge n 0 with hn | hn
  · rw [atoi, decimalInt, if_pos hn, List.dropWhile_cons_of_neg (by decide)]
    simp only [signed]
    rw [hl, if_pos (by omega)]
    congr 1
    omega
  · have hdi : decimalInt n = decimal n.natAbs := if_neg (by omega)
    have hdw : (decimal n.natAbs).dropWhile isSpace = decimal n.natAbs := by
      rw [hct, List.dropWhile_cons_of_neg (by rw [hsp]; exact Bool.false_ne_true)]
    rw [atoi, hdi, hdw]
    have hm : signed (decimal n.natAbs) = (leading (decimal n.natAbs) 0 : ℤ) := by
      rw [hct, signed.eq_def]
      split
      · next heq => rw [List.cons.injEq] at heq; rw [heq.1] at hc; exact absurd hc (by decide)
      · next heq => rw [List.cons.injEq] at heq; rw [heq.1] at hc; exact absurd hc (by decide)
      · next heq => rfl
    rw [hm, hl]
    rw [if_pos (by omega)]
    congr 1
    omega

/-- Text after the number is ignored, and text without a number is 0. -/
example : atoi " +12x".toList = some 12 ∧ atoi "x12".toList = some 0 ∧ atoi "-7".toList = some (-7) ∧ atoi "2147483648".toList = none := by decide +kernel

/-- C109: with a generator of the list, a lattice size 8, 12, ..., 64, less than 2^30 runs and a positive splitting level the program makes
exactly one simulation, with this engine, size and number of runs. -/
theorem C109_run {args : List (List Char)} (ha : args ≠ []) {o : Opts} (ho : parse args .init = .ok o) {b : Bool} (hg : (o.gen, b) ∈ engines)
    (hL : o.L % 4 = 0 ∧ 8 ≤ o.L ∧ o.L ≤ 64) (hr : o.runs < 2 ^ 30) (hs : 1 ≤ o.split) (hs' : o.split ≤ 2 ^ 31 - 1) :
    main args = .ended [⟨o.gen, if b then some o.split.toNat else none, o.runs, o.L⟩] := by
  rw [main, if_neg ha, ho]
  have e : o.split % 2 ^ 32 = o.split := Int.emod_eq_of_lt (by omega) (by omega)
  have hsz : o.L ∈ sizes := by
    obtain ⟨h1, h2, h3⟩ := hL
    have : o.L = 4 * (o.L / 4) := by omega
    have h4 : 2 ≤ o.L / 4 := by omega
    have h5 : o.L / 4 ≤ 16 := by omega
    rw [this]
    generalize o.L / 4 = q at h4 h5
    interval_cases q <;> decide
  have := blocks_one o (by rw [e]; omega) hsz (by omega) engines (by decide +kernel) b hg
  rw [e] at this
  exact this

/-- The command line that the program suggests. -/
example : main ["--gen".toList, "lcg64".toList, "--runs".toList, "100000".toList, "--split".toList, "1".toList, "--size".toList, "16".toList] =
    .ended [⟨"lcg64".toList, some 1, 100000, 16⟩] := by decide +kernel

/-- C109: with another lattice size there is a message and no simulation. -/
theorem C109_size {args : List (List Char)} (ha : args ≠ []) {o : Opts} (ho : parse args .init = .ok o) (hL : ¬ (o.L % 4 = 0 ∧ 8 ≤ o.L ∧ o.L ≤ 64)) :
    ∀ c, main args = .ended c → c = [] := by
  have hsz : o.L ∉ sizes := by
    intro h
    apply hL
    simp only [sizes, List.mem_cons, List.not_mem_nil, or_false] at h
    omega
  have key : ∀ es c, blocks o es [] = .ended c → c = [] := by
    intro es
    induction es with
    | nil => intro c h; cases h; rfl
    | cons e es ih =>
      intro c h
      rw [blocks] at h
      split_ifs at h with h1 h2
      exact ih c h
  intro c h
  rw [main, if_neg ha, ho] at h
  exact key _ _ h

/-- C109 does not hold without `--split`: all such runs end with an exception that is not caught, whatever the other options. -/
theorem C109_split_wrong (ps : List (List Char × List Char)) (hne : ps ≠ [])
    (hp : ∀ p ∈ ps, IsOption p.1 ∧ (p.1 ≠ "--gen".toList → (atoi p.2).isSome)) (hs : ∀ p ∈ ps, p.1 ≠ "--split".toList) :
    main (commandLine ps) = .exception := by
  have hc : commandLine ps ≠ [] := by
    obtain ⟨p, t, rfl⟩ := List.exists_cons_of_ne_nil hne
    exact List.cons_ne_nil _ _
  have hl : lastValue "--split".toList ps = none := by
    rw [lastValue, Option.map_eq_none_iff, List.find?_eq_none]
    intro p h
    rw [decide_eq_true_eq]
    exact hs p (List.mem_reverse.1 h)
  rw [main, if_neg hc, parse_pairs ps _ hp, hl]
  rfl

/-- An unknown generator is no error: the program ends without any output and reports success. -/
theorem C109_generator_wrong {args : List (List Char)} (ha : args ≠ []) {o : Opts} (ho : parse args .init = .ok o) (hg : ∀ e ∈ engines, o.gen ≠ e.1)
    (hs : 1 ≤ o.split) (hs' : o.split ≤ 2 ^ 31 - 1) : main args = .ended [] := by
  rw [main, if_neg ha, ho]
  exact blocks_none o (by omega) _ _ hg

/-- The generators r250_32 and Ziff_32 are not known under these names, and mt19937 not at all. -/
example : ∀ g ∈ ["r250_32".toList, "Ziff_32".toList, "mt19937".toList, "".toList], ∀ e ∈ engines, g ≠ e.1 := by decide +kernel

/-- C109: the report (exact arithmetic).  The vectors have two more entries than there are simulations; no access is out of range, the results
are kept and the additional entries become the mean and the standard error of the mean. -/
theorem C109_report (x : List ℝ) (a b : ℝ) : output Real.sqrt x.length (x ++ [a, b]) = some (x ++ [mean x, standardError x]) :=
  output_eq Real.sqrt x a b

/-- The standard error is 0 only if all results are equal. -/
theorem C109_report_zero (x : List ℝ) (h2 : 2 ≤ x.length) : standardError x = 0 ↔ ∀ v ∈ x, v = mean x := by
  have hn : (2 : ℝ) ≤ x.length := by exact_mod_cast h2
  have hpos : (0 : ℝ) < ((x.length : ℝ) - 1) * x.length := mul_pos (by linarith) (by linarith)
  have h0 : 0 ≤ (x.map fun v => (v - mean x) ^ 2).sum := List.sum_nonneg fun y hy => by
    obtain ⟨v, -, rfl⟩ := List.mem_map.1 hy
    positivity
  rw [standardError, Real.sqrt_eq_zero (div_nonneg h0 hpos.le), div_eq_zero_iff, or_iff_left hpos.ne']
  constructor
  · intro h v hv
    have hle : (v - mean x) ^ 2 ≤ (x.map fun v => (v - mean x) ^ 2).sum :=
      List.single_le_sum (fun y hy => by obtain ⟨v, -, rfl⟩ := List.mem_map.1 hy; positivity) _ (List.mem_map_of_mem (f := fun v => (v - mean x) ^ 2) hv)
    rw [h] at hle
    have := pow_eq_zero_iff (two_ne_zero) |>.1 (le_antisymm hle (sq_nonneg _))
    linarith
  · intro h
    apply List.sum_eq_zero
    intro y hy
    obtain ⟨v, hv, rfl⟩ := List.mem_map.1 hy
    rw [← h v hv]
    simp

example : output id 3 [(1 : ℚ), 2, 6, 0, 0] = some [1, 2, 6, 3, 7 / 3] := by decide +kernel

end Trng.Props
