import Verif.Proofs.Dieharder
import Verif.Props.Seeding

/-! Property C99: the program that writes files for the Dieharder tests. -/
namespace Trng.Dieharder
open Spec StreamSpec DieharderSpec

/-- C99, part: with the name of one of the 18 engines and a number of samples the program writes a well-formed file with exactly that many
values, which are the outputs of the default-constructed engine, and each of which fits into the announced number of bits (the smallest
possible one for the engine's range).  A seed is accepted and appears in the comment.  Missing: that the values are those of
the engine with this seed, which is wrong (C99_seed_wrong). -/
theorem C99_file_partial {R : Prng} (hR : R ∈ prngs) : ∃ (x : Nat → Nat) (b : Nat),
    (∀ k, nth R.call R.init k = some (x k : ℤ) ∧ x k < 2 ^ b) ∧ 2 ^ (b - 1) ≤ R.max ∧
    ∀ (p ns : List Char) (n : BitVec 64), Argument ns n →
      (∃ t, main [p, R.name, ns] = .file t ∧ FileText R.name 0 n.toNat b x t) ∧
      ∀ (ss : List Char) (s : BitVec 64), Argument ss s → ∃ t, main [p, R.name, ns, ss] = .file t ∧ FileText R.name s.toNat n.toNat b x t := by
  obtain ⟨x, b, h⟩ := fits hR
  refine ⟨x, b, fun k => ⟨h.vals k, (h.le k).trans_lt h.lt⟩, h.ge, fun p ns n hn => ⟨?_, fun ss s hs => ?_⟩⟩
  · obtain ⟨t, e, ht⟩ := generate_spec R x h.vals n 0
    rw [h.bits] at ht
    refine ⟨t, ?_, ht⟩
    have e : generate R n 0#64 = some t := e
    simp [main, find hR, tryParse_iff.2 hn, e]
  · obtain ⟨t, e, ht⟩ := generate_spec R x h.vals n s
    rw [h.bits] at ht
    refine ⟨t, ?_, ht⟩
    simp [main, find hR, tryParse_iff.2 hn, tryParse_iff.2 hs, e]

/-- "25" stands for 25, and `yarn3` is one of the engines. -/
theorem argument_25 : Argument "25".toList 25 := tryParse_iff.1 (by decide)

example : ∃ (x : Nat → Nat) (b : Nat) (t : List Char), main ["a".toList, "yarn3".toList, "25".toList] = .file t ∧ FileText "yarn3".toList 0 25 b x t := by
  obtain ⟨x, b, -, -, h⟩ := C99_file_partial (R := yarn .k3) (by simp [prngs])
  obtain ⟨⟨t, ht⟩, -⟩ := h "a".toList _ _ argument_25
  exact ⟨x, b, t, ht⟩

/-- C99, part: any other command line (number of arguments, name of the engine, number of samples or seed) gives the message and no file;
the behaviour is never undefined. -/
theorem C99_usage (argv : List (List Char)) :
    main argv = .usage ∨ ∃ p R ns n, R ∈ prngs ∧ Argument ns n ∧
      (argv = [p, R.name, ns] ∨ ∃ ss s, Argument ss s ∧ argv = [p, R.name, ns, ss]) ∧ ∃ t, main argv = .file t := by
  by_cases hl : argv.length ≠ 3 ∧ argv.length ≠ 4
  · left; simp only [main, if_pos hl]
  cases hf : prngs.find? fun R => R.name = argv.getD 1 [] with
  | none => left; simp only [main, if_neg hl, hf]
  | some R =>
    have hR := List.mem_of_find?_eq_some hf
    have hname : R.name = argv.getD 1 [] := by simpa using List.find?_some hf
    cases hn : tryParse (argv.getD 2 []) with
    | none => left; simp only [main, if_neg hl, hf, hn]
    | some n =>
      cases hs : (if argv.length = 4 then tryParse (argv.getD 3 []) else some 0) with
      | none => left; simp only [main, if_neg hl, hf, hn, hs]
      | some s =>
        right
        obtain ⟨x, b, h⟩ := fits hR
        obtain ⟨t, e, -⟩ := generate_spec R x h.vals n s
        refine ⟨argv.getD 0 [], R, argv.getD 2 [], n, hR, tryParse_iff.1 hn, ?_, t, by simp only [main, if_neg hl, hf, hn, hs, e]⟩
        match argv, hl, hname, hs with
        | [p, a, ns], _, hname, _ => left; simp_all
        | [p, a, ns, ss], _, hname, hs => right; exact ⟨ss, s, tryParse_iff.1 (by simpa using hs), by simp_all⟩
        | [], hl, _, _ | [_], hl, _, _ | [_, _], hl, _, _ | _ :: _ :: _ :: _ :: _ :: _, hl, _, _ => simp at hl

example : main ["a".toList, "yarn3".toList, "x".toList] = .usage := by
  rcases C99_usage ["a".toList, "yarn3".toList, "x".toList] with h | ⟨p, R, ns, n, -, hn, h | ⟨ss, s, -, h⟩, -⟩
  · exact h
  · simp only [List.cons.injEq] at h
    obtain ⟨-, -, rfl, -⟩ := h
    exact absurd (tryParse_iff.2 hn) (by rw [show tryParse "x".toList = none by decide]; simp)
  · simp at h

/-- C99 fails for the seed: for no seed except 0 does `dieharder_file lcg64 <n> <seed>` write the numbers of `lcg64` with this seed. -/
theorem C99_seed_wrong (p ns ss : List Char) (n s : BitVec 64) (hn : Argument ns n) (hs : Argument ss s) (h1 : n ≠ 0) (h0 : s ≠ 0) (b : Nat) (t : List Char)
    (h : main [p, "lcg64".toList, ns, ss] = .file t) :
    ¬ FileText "lcg64".toList s.toNat n.toNat b (fun k => (nth LCG64.call ((LCG64.ofParam LCG64.Default).seed s) k).toNat) t := by
  intro hc
  obtain ⟨x, b, hx, -, H⟩ := C99_file_partial (R := ⟨Stream.Engine.lcg64.name, LCG64, LCG64.ofParam LCG64.Default, ofBits LCG64.call, 2 ^ 64 - 1⟩)
    (by simp [prngs])
  obtain ⟨t', e', ht'⟩ := (H p ns n hn).2 ss s hs
  have et : t' = t := by
    have h : main [p, Stream.Engine.lcg64.name, ns, ss] = .file t := h
    exact Outcome.file.inj (e'.symm.trans h)
  rw [et] at ht'
  have hv := (fileText_unique (by decide) hc ht').2 0 (by rw [Nat.pos_iff_ne_zero]; exact fun hz => h1 (BitVec.eq_of_toNat_eq hz))
  have h2 := (hx 0).1
  have h3 : nth (ofBits LCG64.call) (LCG64.ofParam LCG64.Default) 0 = some ((nth LCG64.call ((LCG64.ofParam LCG64.Default).seed 0) 0).toNat : ℤ) := rfl
  rw [h3] at h2
  have h4 : (nth LCG64.call ((LCG64.ofParam LCG64.Default).seed 0) 0).toNat = x 0 := by exact_mod_cast Option.some.inj h2
  rw [← h4] at hv
  exact (C66_lcg64_seed_distinct (LCG64.ofParam LCG64.Default) (by decide) s 0 h0).1 (BitVec.eq_of_toNat_eq hv)

example : Argument "1".toList 1 ∧ Argument "7".toList 7 ∧ (1 : BitVec 64) ≠ 0 ∧ (7 : BitVec 64) ≠ 0 :=
  ⟨tryParse_iff.1 (by decide), tryParse_iff.1 (by decide), by decide, by decide⟩

/-- C99 fails for negative numbers: `dieharder_file lcg64 -1` is not an error, the program sets out to write 2^64 - 1 numbers. -/
theorem C99_negative_wrong (p : List Char) :
    ∃ b x t, main [p, "lcg64".toList, "-1".toList] = .file t ∧ FileText "lcg64".toList 0 (2 ^ 64 - 1) b x t := by
  obtain ⟨x, b, -, -, H⟩ := C99_file_partial (R := ⟨Stream.Engine.lcg64.name, LCG64, LCG64.ofParam LCG64.Default, ofBits LCG64.call, 2 ^ 64 - 1⟩)
    (by simp [prngs])
  obtain ⟨t, e, ht⟩ := (H p "-1".toList (BitVec.ofNat 64 (2 ^ 64 - 1)) (tryParse_iff.1 (by decide))).1
  exact ⟨b, x, t, e, ht⟩

end Trng.Dieharder
