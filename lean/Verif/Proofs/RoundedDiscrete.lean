import Verif.Model.RoundedDiscrete
import Verif.Proofs.RoundedWrong
import Verif.Proofs.TailDists

/-! The discrete distributions of Model/RoundedDiscrete.lean. -/
namespace Trng
open XR Spec Machine Trng.Discrete
open Classical

namespace Rounded

/-! ### The search in any table -/

theorem searchLoop_any (x : XR) (t : List XR) : ∀ fuel i1 i2, i2 - i1 < fuel → i2 < t.length → ∃ i, searchLoop x t fuel i1 i2 = some i ∧ i ≤ i2
  | 0, _, _, h, _ => by omega
  | fuel + 1, i1, i2, h, h2 => by
    rw [searchLoop]
    split_ifs with h3
    · rw [List.getElem?_eq_getElem (show (i2 + i1) / 2 < t.length by omega), Option.bind_some]
      split_ifs
      · obtain ⟨i, e, hi⟩ := searchLoop_any x t fuel i1 ((i2 + i1) / 2) (by omega) (by omega)
        exact ⟨i, e, by omega⟩
      · obtain ⟨i, e, hi⟩ := searchLoop_any x t fuel ((i2 + i1) / 2) i2 (by omega) h2
        exact ⟨i, e, by omega⟩
    · exact ⟨i2, rfl, le_refl _⟩

theorem search_any (x : XR) {t : List XR} (ht : t ≠ []) : ∃ i, search x t = some i ∧ i < t.length := by
  have hp : 0 < t.length := List.length_pos_iff.2 ht
  rw [search, List.getElem?_eq_getElem hp, Option.bind_some]
  split_ifs
  · exact ⟨0, rfl, hp⟩
  · obtain ⟨i, e, hi⟩ := searchLoop_any x t t.length 0 (t.length - 1) (by omega) (by omega)
    exact ⟨i, e, by omega⟩

/-- If no entry before the last one is at least `x`, the search ends at the last. -/
theorem searchLoop_last (x : XR) (t : List XR) (n : ℕ) (hn : n < t.length) (h : ∀ i (hi : i < t.length), i < n → ¬ x ≤ t[i]) :
    ∀ fuel i1, n - i1 < fuel → searchLoop x t fuel i1 n = some n
  | 0, _, hf => by omega
  | fuel + 1, i1, hf => by
    rw [searchLoop]
    split_ifs with h3
    · rw [List.getElem?_eq_getElem (show (n + i1) / 2 < t.length by omega), Option.bind_some, if_neg (h _ (by omega) (by omega))]
      exact searchLoop_last x t n hn h fuel _ (by omega)
    · rfl

theorem search_last (x : XR) {t : List XR} (ht : t ≠ []) (h0 : ∀ (hi : 0 < t.length), ¬ x < t[0])
    (h : ∀ i (hi : i < t.length), i < t.length - 1 → ¬ x ≤ t[i]) : search x t = some (t.length - 1) := by
  have hp : 0 < t.length := List.length_pos_iff.2 ht
  rw [search, List.getElem?_eq_getElem hp, Option.bind_some, if_neg (h0 hp)]
  exact searchLoop_last x t _ (by omega) h _ _ (by omega)

variable {M : Machine}

/-! ### Tables -/

theorem cumulateFrom_length (a : XR) (l : List XR) : (cumulateFrom M a l).length = l.length := by
  induction l generalizing a with
  | nil => rfl
  | cons p l ih => simp [cumulateFrom, ih]
theorem cumulate_length (l : List XR) : (cumulate M l).length = l.length := by
  cases l with
  | nil => rfl
  | cons p l => simp [cumulate, cumulateFrom_length]
theorem normalize_length (l : List XR) : (normalize M l).length = l.length := by
  rw [normalize]; split <;> simp
theorem binomialEntries_length (lnp lnq : XR) (n k i : ℕ) (b : XR) : (binomialEntries M lnp lnq n k i b).length = k := by
  induction k generalizing i b with
  | zero => rfl
  | succ k ih => simp [binomialEntries, ih]

theorem hyper_length (n m d : ℤ) : (hypergeometric M n m d).P.length = (Hypergeometric.upper m d + 1 - Hypergeometric.lower n m d).toNat := by
  simp [hypergeometric, normalize_length, cumulate_length]
theorem binomial_length (p : XR) (n : ℕ) : (binomial M p n).P.length = n + 1 := by
  simp [binomial, normalize_length, cumulate_length, binomialEntries_length]

/-- +∞ or NaN. -/
def Lost (x : XR) : Prop := x = pinf ∨ x = nan

theorem lost_round {x : XR} (h : Lost x) : Lost (M.round x) := by
  rcases h with rfl | rfl
  · exact Or.inl rfl
  · exact Or.inr rfl
theorem lost_add_left {x y : XR} (h : Lost x) : Lost (M.add x y) := by
  refine lost_round ?_
  rcases h with rfl | rfl
  · cases y <;> first | exact Or.inl rfl | exact Or.inr rfl
  · exact Or.inr (by cases y <;> rfl)
theorem lost_add_right {x y : XR} (h : Lost y) : Lost (M.add x y) := by
  refine lost_round ?_
  rcases h with rfl | rfl
  · cases x <;> first | exact Or.inl rfl | exact Or.inr rfl
  · exact Or.inr (by cases x <;> rfl)

theorem cumulateFrom_lost {a : XR} {l : List XR} (h : Lost a ∨ ∃ p ∈ l, Lost p) (hl : l ≠ []) :
    ∃ b, (cumulateFrom M a l).getLast? = some b ∧ Lost b := by
  induction l generalizing a with
  | nil => exact absurd rfl hl
  | cons p l ih =>
    have step : Lost (M.add p a) ∨ ∃ q ∈ l, Lost q := by
      rcases h with h | ⟨q, hq, h⟩
      · exact Or.inl (lost_add_right h)
      · rcases List.mem_cons.1 hq with rfl | hq
        · exact Or.inl (lost_add_left h)
        · exact Or.inr ⟨q, hq, h⟩
    rw [cumulateFrom]
    by_cases hl' : l = []
    · subst hl'
      rcases step with h | ⟨q, hq, -⟩
      · exact ⟨_, rfl, h⟩
      · exact absurd hq (by simp)
    · obtain ⟨b, hb, hb'⟩ := ih step hl'
      refine ⟨b, ?_, hb'⟩
      rw [List.getLast?_cons, hb]
      rfl

theorem cumulate_lost {l : List XR} (h : ∃ p ∈ l, Lost p) : ∃ b, (cumulate M l).getLast? = some b ∧ Lost b := by
  cases l with
  | nil => obtain ⟨p, hp, -⟩ := h; exact absurd hp (by simp)
  | cons p l =>
    rw [cumulate]
    have step : Lost p ∨ ∃ q ∈ l, Lost q := by
      obtain ⟨q, hq, h⟩ := h
      rcases List.mem_cons.1 hq with rfl | hq
      · exact Or.inl h
      · exact Or.inr ⟨q, hq, h⟩
    by_cases hl' : l = []
    · subst hl'
      rcases step with h | ⟨q, hq, -⟩
      · exact ⟨_, rfl, h⟩
      · exact absurd hq (by simp)
    · obtain ⟨b, hb, hb'⟩ := cumulateFrom_lost (M := M) step hl'
      refine ⟨b, ?_, hb'⟩
      rw [List.getLast?_cons, hb]
      rfl

/-- What is divided by such a number is 0 or NaN. -/
theorem div_lost (R : Rounding M.rnd) {b : XR} (h : Lost b) (a : XR) : M.div a b = fin 0 ∨ M.div a b = nan := by
  rcases h with rfl | rfl
  · cases a with
    | fin x => exact Or.inl (show M.round (fin 0) = fin 0 by rw [round_fin, R.zero])
    | _ => exact Or.inr rfl
  · exact Or.inr (by cases a <;> rfl)

theorem not_le_nan (x : XR) : ¬ x ≤ nan := by cases x <;> exact id
theorem not_lt_nan (x : XR) : ¬ x < nan := by cases x <;> exact id

/-- Once an entry overflows, all samples are the last number. -/
theorem hyper_overflow (R : Rounding M.rnd) {n m d : ℤ}
    (h : ∃ x, Hypergeometric.lower n m d ≤ x ∧ x ≤ Hypergeometric.upper m d ∧ hyperEntry M n m x = pinf) {u : ℝ} (hu : 0 < u) :
    (hypergeometric M n m d).draw (fin u) = some (Hypergeometric.upper m d) := by
  obtain ⟨x, hx0, hx1, hx⟩ := h
  set l := (List.range (Hypergeometric.upper m d + 1 - Hypergeometric.lower n m d).toNat).map fun i : ℕ => hyperEntry M n m (Hypergeometric.lower n m d + (i : ℤ)) with hl
  have hmem : ∃ p ∈ l, Lost p := by
    refine ⟨pinf, List.mem_map.2 ⟨(x - Hypergeometric.lower n m d).toNat, List.mem_range.2 (by omega), ?_⟩, Or.inl rfl⟩
    rw [Int.toNat_of_nonneg (by omega), add_sub_cancel]; exact hx
  obtain ⟨b, hb, hb'⟩ := cumulate_lost (M := M) hmem
  have hP : (hypergeometric M n m d).P = (cumulate M l).map (M.div · b) := by
    show normalize M (cumulate M l) = _
    rw [normalize, hb]
  have hlen := hyper_length (M := M) n m d
  have hent : ∀ i (hi : i < (hypergeometric M n m d).P.length), (hypergeometric M n m d).P[i] = fin 0 ∨ (hypergeometric M n m d).P[i] = nan := by
    intro i hi
    simp only [hP, List.getElem_map]
    exact div_lost R hb' _
  have hne : (hypergeometric M n m d).P ≠ [] := by
    intro e
    rw [e, List.length_nil] at hlen
    omega
  have nle : ∀ i (hi : i < (hypergeometric M n m d).P.length), ¬ fin u ≤ (hypergeometric M n m d).P[i] := by
    intro i hi
    rcases hent i hi with e | e <;> rw [e]
    · rw [fin_le]; linarith
    · exact not_le_nan _
  rw [Hypergeometric.draw, search_last (fin u) hne (fun hi h => nle 0 hi (lt_le h)) (fun i hi _ => nle i hi), Option.map_some, hlen]
  show some (Hypergeometric.lower n m d + _) = _
  congr 1
  omega

theorem hyper_range (hD : Hypergeometric.lower n m d ≤ Hypergeometric.upper m d) (u : XR) :
    ∃ k, (hypergeometric M n m d).draw u = some k ∧ Hypergeometric.lower n m d ≤ k ∧ k ≤ Hypergeometric.upper m d := by
  have hlen := hyper_length (M := M) n m d
  have hne : (hypergeometric M n m d).P ≠ [] := by
    intro e
    rw [e, List.length_nil] at hlen
    omega
  obtain ⟨i, e, hi⟩ := search_any u hne
  refine ⟨Hypergeometric.lower n m d + i, ?_, by omega, by omega⟩
  rw [Hypergeometric.draw, e]; rfl

theorem binomial_range (p u : XR) (n : ℕ) : ∃ k, (binomial M p n).draw u = some k ∧ 0 ≤ k ∧ k ≤ n := by
  have hlen := binomial_length (M := M) p n
  have hne : (binomial M p n).P ≠ [] := by
    intro e
    rw [e, List.length_nil] at hlen
    omega
  obtain ⟨i, e, hi⟩ := search_any u hne
  refine ⟨i, ?_, by omega, by omega⟩
  rw [Binomial.draw, e]; rfl

/-! ### geometric_dist -/

theorem geometric_none (S : Sound M) {p u : ℝ} (hp : M.sub 1 (fin p) = fin 1) (h0 : 0 < u) (h1 : u < 1) :
    geometricDraw M (geometric M (fin p)) (fin u) = none := by
  have e : (geometric M (fin p)).oneOverLnQ = pinf := by
    show M.div 1 (M.ln (M.sub 1 (fin p))) = pinf
    rw [hp, S.library.ln_one, one_def]
    show M.round (fin 1 / fin 0) = pinf
    rw [fin_div', if_pos rfl, infSign_pos one_pos]; rfl
  have hl : M.ln (fin u) ≤ fin 0 := by
    rw [← S.library.ln_one]; exact S.library.ln_mono _ _ ((fin_le _ _).2 h0.le) ((fin_le _ _).2 h1.le)
  rw [geometricDraw, e]
  revert hl
  cases M.ln (fin u) with
  | nan => exact fun h => absurd h id
  | ninf => exact fun _ => rfl
  | pinf => exact fun h => absurd h id
  | fin a =>
    intro _
    show (M.round (infSign a)).toInt = none
    rw [infSign]
    split_ifs <;> rfl

theorem toInt_nonneg {x : XR} (h : fin 0 ≤ x) {k : ℤ} (hk : x.toInt = some k) : 0 ≤ k := by
  cases x with
  | fin x =>
    have h : 0 ≤ x := h
    simp only [XR.toInt] at hk
    rw [if_pos h] at hk
    split_ifs at hk
    rw [← Option.some.inj hk]
    exact Int.floor_nonneg.2 h
  | _ => exact absurd hk (by simp [XR.toInt])

theorem geometric_nonneg (S : Sound M) {p u : ℝ} (hp0 : 0 ≤ p) (hp1 : p ≤ 1) (h0 : 0 < u) (h1 : u < 1) {k : ℤ}
    (hk : geometricDraw M (geometric M (fin p)) (fin u) = some k) : 0 ≤ k := by
  have R := S.rounding
  have L := S.library
  have hl : M.ln (fin u) ≤ fin 0 := by
    rw [← L.ln_one]; exact L.ln_mono _ _ ((fin_le _ _).2 h0.le) ((fin_le _ _).2 h1.le)
  have hq : Unit (M.sub 1 (fin p)) := one_sub_unit R ⟨(fin_le _ _).2 hp0, (fin_le _ _).2 hp1⟩
  have hlq : M.ln (M.sub 1 (fin p)) ≤ fin 0 := by rw [← L.ln_one]; exact L.ln_mono _ _ hq.1 hq.2
  have hw : M.div 1 (M.ln (M.sub 1 (fin p))) ≤ fin 0 ∨ M.div 1 (M.ln (M.sub 1 (fin p))) = pinf := by
    generalize M.ln (M.sub 1 (fin p)) = y at hlq ⊢
    rw [one_def]
    revert hlq
    cases y with
    | nan => exact fun h => absurd h id
    | pinf => exact fun h => absurd h id
    | ninf =>
      intro _
      left
      show M.round (fin 0) ≤ fin 0
      rw [round_fin, R.zero]; exact unit_zero.1
    | fin c =>
      intro h
      have h : c ≤ 0 := h
      rcases h.eq_or_lt with rfl | h
      · right
        show M.round (fin 1 / fin 0) = pinf
        rw [fin_div', if_pos rfl, infSign_pos one_pos]; rfl
      · left
        rw [div_fin _ h.ne, ← R.zero]
        exact R.mono _ _ (div_nonpos_of_nonneg_of_nonpos zero_le_one h.le)
  have key : ∀ a w : XR, a ≤ fin 0 → (w ≤ fin 0 ∨ w = pinf) → (M.mul a w).toInt = some k → 0 ≤ k := by
    intro a w ha hw hk
    have sgn : ∀ s : ℝ, (M.round (infSign s)).toInt = none := by intro s; rw [infSign]; split_ifs <;> rfl
    cases a with
    | nan => exact absurd ha id
    | pinf => exact absurd ha id
    | ninf =>
      exfalso
      cases w with
      | fin w => exact absurd hk (by rw [show M.mul ninf (fin w) = M.round (infSign (-w)) from rfl, sgn]; simp)
      | _ => exact absurd hk (by simp [Machine.mul, Machine.round, XR.toInt, HMul.hMul, Mul.mul, XR.mul])
    | fin a =>
      have ha : a ≤ 0 := ha
      cases w with
      | nan => exact absurd hk (by simp [Machine.mul, Machine.round, XR.toInt, HMul.hMul, Mul.mul, XR.mul])
      | pinf => exact absurd hk (by rw [show M.mul (fin a) pinf = M.round (infSign a) from rfl, sgn]; simp)
      | ninf => exact absurd hk (by rw [show M.mul (fin a) ninf = M.round (infSign (-a)) from rfl, sgn]; simp)
      | fin w =>
        have hw : w ≤ 0 := by
          rcases hw with h | h
          · exact h
          · cases h
        refine toInt_nonneg ?_ hk
        rw [mul_fin, ← R.zero]
        exact R.mono _ _ (mul_nonneg_of_nonpos_of_nonpos ha hw)
  exact key _ _ hl hw hk

/-! ### zero_truncated_poisson_dist -/

theorem inf_entry {Q : XR} {mu : ℝ} (e1 : M.exp (fin mu) = pinf) (e2 : M.expm1 (fin mu) = pinf) :
    M.div (M.sub (M.mul (M.exp (fin mu)) Q) 1) (M.expm1 (fin mu)) = nan := by
  rw [e1, e2, one_def]
  have : ∀ x : XR, x = pinf ∨ x = ninf ∨ x = nan → M.div (M.sub (M.round x) (fin 1)) pinf = nan := by
    rintro x (rfl | rfl | rfl) <;> rfl
  refine this (pinf * Q) ?_
  cases Q with
  | fin q =>
    show infSign q = _ ∨ infSign q = _ ∨ infSign q = _
    rw [infSign]; split_ifs <;> simp
  | nan => exact Or.inr (Or.inr rfl)
  | ninf => exact Or.inr (Or.inl rfl)
  | pinf => exact Or.inl rfl

theorem ztp_table {Q : XR → XR → XR} {mu : ℝ} {v : XR} {N : ℤ} (hv : ∀ x : ℤ, 1 ≤ x → x ≤ N → M.div (M.sub (M.mul (M.exp (fin mu)) (Q (M.add (ofInt x) 1) (fin mu))) 1) (M.expm1 (fin mu)) = v)
    (hN : ∀ x : ℤ, 1 ≤ x → x < N → x < 7 ∨ ofInt x < M.mul 2 (fin mu)) (hN' : ¬ (N < 7 ∨ ofInt N < M.mul 2 (fin mu))) :
    ∀ (fuel : ℕ) (x : ℤ), 1 ≤ x → x ≤ N → N - x < fuel →
      ZTPoisson.tableLoop M Q (fin mu) fuel x = some (List.replicate (N - x).toNat v ++ [1])
  | 0, x, _, _, hf => by omega
  | fuel + 1, x, h0, h1, hf => by
    rw [ZTPoisson.tableLoop]
    by_cases e : x = N
    · subst e
      rw [if_neg hN', sub_self]; rfl
    · rw [if_pos (hN x h0 (by omega)), ztp_table hv hN hN' fuel (x + 1) (by omega) (by omega) (by omega), hv x h0 h1, Option.map_some,
        show (N - x).toNat = (N - (x + 1)).toNat + 1 by omega, List.replicate_succ, List.cons_append]

theorem ztp_draw {Q : XR → XR → XR} {mu u : ℝ} {v : XR} {N : ℤ} (hu : 0 < u) (huv : ¬ fin u ≤ v)
    (hv : ∀ x : ℤ, 1 ≤ x → x ≤ N → M.div (M.sub (M.mul (M.exp (fin mu)) (Q (M.add (ofInt x) 1) (fin mu))) 1) (M.expm1 (fin mu)) = v)
    (h7 : 7 ≤ N) (hN31 : N < 2 ^ 31) (hN : ∀ x : ℤ, 1 ≤ x → x < N → x < 7 ∨ ofInt x < M.mul 2 (fin mu))
    (hN' : ¬ (N < 7 ∨ ofInt N < M.mul 2 (fin mu))) :
    ZTPoisson.draw M Q (fin mu) (fin u) = tailLoop M (ZTPoisson.pdf M (fin mu)) (2 ^ 31 - N.toNat) (M.sub (fin u) v) N := by
  have ht := ztp_table hv hN hN' (2 ^ 31 - 1) 1 (le_refl _) (by omega) (by omega)
  set P : List XR := 0 :: (List.replicate (N - 1).toNat v ++ [1]) with hP
  have hlen : P.length = N.toNat + 1 := by simp [hP]; omega
  have hs : search (fin u) P = some N.toNat := by
    have := search_last (fin u) (t := P) (by simp [hP]) (fun hi => by simp only [hP, List.getElem_cons_zero]; rw [zero_def, fin_lt]; linarith) ?_
    · rw [this, hlen]; rfl
    · intro i hi hi'
      rcases Nat.eq_zero_or_pos i with rfl | h0
      · simp only [hP, List.getElem_cons_zero]; rw [zero_def, fin_le]; linarith
      · have : P[i] = v := by
          simp only [hP]
          rw [List.getElem_cons, dif_neg (by omega), List.getElem_append_left (by simp; omega), List.getElem_replicate]
        rw [this]; exact huv
  rw [ZTPoisson.draw, ZTPoisson.table, ht, Option.map_some, Option.bind_some, tailDraw, ← hP, hs, Option.bind_some, if_pos hlen.symm,
    Int.toNat_of_nonneg (by omega)]
  congr 1
  rw [ZTPoisson.cdf, if_neg (by omega), hv N (by omega) (le_refl _)]

theorem tailLoop_stop (pdf : ℤ → XR) {fuel : ℕ} (hf : 0 < fuel) (x : ℤ) : tailLoop M pdf fuel nan x = some x := by
  obtain ⟨f, rfl⟩ := Nat.exists_eq_succ_of_ne_zero hf.ne'
  rw [tailLoop, if_neg (not_lt_nan _)]

/-- Once `exp` and `expm1` overflow, all samples are the same number. -/
theorem ztp_overflow (R : Rounding M.rnd) {mu : ℝ} (e1 : M.exp (fin mu) = pinf) (e2 : M.expm1 (fin mu) = pinf) (h0 : 0 ≤ mu)
    (h1 : M.mul 2 (fin mu) ≤ fin (2 ^ 30)) (Q : XR → XR → XR) :
    (∃ k, ∀ u : ℝ, 0 < u → ZTPoisson.draw M Q (fin mu) (fin u) = some k) ∧ ∀ x : ℤ, 1 ≤ x → ZTPoisson.cdf M Q (fin mu) x = nan := by
  have hy : fin 0 ≤ M.mul 2 (fin mu) := by
    rw [two_def, mul_fin, ← R.zero]; exact R.mono _ _ (by linarith)
  obtain ⟨y, ey, y0, y1⟩ := between hy h1
  refine ⟨⟨max 7 ⌈y⌉, fun u hu => ?_⟩, fun x hx => ?_⟩
  · have hc : ⌈y⌉ ≤ 2 ^ 30 := by rw [Int.ceil_le]; exact_mod_cast y1
    rw [ztp_draw (N := max 7 ⌈y⌉) hu (not_le_nan _) (fun x _ _ => inf_entry e1 e2) (le_max_left _ _) (by omega) ?_ ?_]
    · exact tailLoop_stop _ (by omega) _
    · intro x _ hx
      rw [ey, ofInt, fin_lt]
      rcases lt_max_iff.1 hx with h | h
      · exact Or.inl h
      · exact Or.inr (Int.lt_ceil.1 h)
    · rw [ey, ofInt, fin_lt]
      push Not
      refine ⟨le_max_left _ _, (Int.le_ceil y).trans ?_⟩
      exact_mod_cast le_max_right _ _
  · rw [ZTPoisson.cdf, if_neg (by omega), inf_entry e1 e2]

theorem ge_pinf {a : XR} (h : pinf ≤ a) : a = pinf := by
  revert h; cases a <;> intro h <;> first | rfl | exact absurd h id

theorem e_710 : (2 ^ 1024 + 1) * 1000 ^ 710 ≤ 2718 ^ 710 := by decide +kernel

theorem exp_710 : (2 : ℝ) ^ (1024 : ℤ) + 1 ≤ Real.exp 710 := by
  have h2 : (2718 / 1000 : ℝ) ≤ Real.exp 1 := by have := Real.exp_one_gt_d9; linarith
  have h3 : ((2 : ℝ) ^ 1024 + 1) * 1000 ^ 710 ≤ 2718 ^ 710 := by exact_mod_cast e_710
  calc (2 : ℝ) ^ (1024 : ℤ) + 1 ≤ (2718 / 1000) ^ 710 := by
        rw [div_pow, le_div_iff₀ (by positivity), show (2 : ℝ) ^ (1024 : ℤ) = 2 ^ 1024 from zpow_natCast 2 1024]; exact h3
    _ ≤ Real.exp 1 ^ 710 := pow_le_pow_left₀ (by norm_num) h2 _
    _ = Real.exp 710 := by rw [← Real.exp_nat_mul]; norm_num

theorem dbl_exp {x : ℝ} (h : 710 ≤ x) : doubleMachine.exp (fin x) = pinf ∧ doubleMachine.expm1 (fin x) = pinf := by
  have := exp_710.trans (Real.exp_le_exp.2 h)
  constructor
  · exact dbl_over (by linarith)
  · exact dbl_over (by linarith)

theorem ztp_double {mu : ℝ} (h : 710 ≤ mu) (h' : mu ≤ 2 ^ 29) (Q : XR → XR → XR) :
    (∃ k, ∀ u : ℝ, 0 < u → ZTPoisson.draw doubleMachine Q (fin mu) (fin u) = some k) ∧
      ∀ x : ℤ, 1 ≤ x → ZTPoisson.cdf doubleMachine Q (fin mu) x = nan := by
  have R := double_sound.rounding
  refine ztp_overflow R (dbl_exp h).1 (dbl_exp h).2 (by linarith) ?_ Q
  rw [two_def, mul_fin, show (2 ^ 30 : ℝ) = 2 ^ (30 : ℤ) by norm_num, ← dbl_two (j := 30) (by norm_num) (by norm_num)]
  exact R.mono _ _ (by norm_num; linarith)

/-! ### hypergeometric_dist in double -/

theorem fact_1000 : 272 ^ 5900 ≤ Nat.factorial 1000 * 100 ^ 5900 := by decide +kernel
theorem fact_500 : Nat.factorial 500 * 1000 ^ 2612 ≤ 2718 ^ 2612 := by decide +kernel

theorem dbl_lnGamma {n : ℕ} : doubleMachine.lnGamma (fin ((n : ℝ) + 1)) = doubleMachine.rnd (Real.log (Nat.factorial n)) := by
  show doubleMachine.round (XR.lnGamma (fin ((n : ℝ) + 1))) = _
  have : ¬ ∃ k : ℕ, (n : ℝ) + 1 = -k := by rintro ⟨k, h⟩; have : (0 : ℝ) ≤ k := k.cast_nonneg; have : (0 : ℝ) ≤ n := n.cast_nonneg; linarith
  rw [XR.lnGamma, if_neg this, round_fin, Real.Gamma_nat_eq_factorial, Nat.abs_cast]

theorem dbl_add_one {n : ℕ} (h : n + 1 < 2 ^ 53) : doubleMachine.add (fin n) 1 = fin ((n : ℝ) + 1) := by
  rw [one_def, add_fin]
  have := dbl_nat h
  push_cast at this
  exact this

theorem sub_le_sub {a b : XR} {x y : ℝ} (h : fin x ≤ a) (h' : a ≠ pinf) (g : b ≤ fin y) : fin (x - y) ≤ a - b := by
  cases a with
  | fin a => cases b with
    | fin b => rw [fin_sub, fin_le]; have : x ≤ a := h; have : b ≤ y := g; linarith
    | ninf => exact trivial
    | pinf => exact absurd g id
    | nan => exact absurd g id
  | pinf => exact absurd rfl h'
  | ninf => exact absurd h id
  | nan => exact absurd h id

theorem le_log_fact {n k : ℕ} (h : 272 ^ k ≤ Nat.factorial n * 100 ^ k) : (k : ℝ) ≤ Real.log (Nat.factorial n) := by
  rw [Real.le_log_iff_exp_le (Nat.cast_pos.2 (Nat.factorial_pos _))]
  have h3 : Real.exp 1 ≤ 272 / 100 := by have := Real.exp_one_lt_d9; linarith
  have h4 : (272 : ℝ) ^ k ≤ Nat.factorial n * 100 ^ k := by exact_mod_cast h
  calc Real.exp k = Real.exp 1 ^ k := by rw [← Real.exp_nat_mul, mul_one]
    _ ≤ (272 / 100) ^ k := pow_le_pow_left₀ (Real.exp_pos _).le h3 _
    _ ≤ _ := by rw [div_pow, div_le_iff₀ (by positivity)]; exact h4

theorem log_fact_le {n k : ℕ} (h : Nat.factorial n * 1000 ^ k ≤ 2718 ^ k) : Real.log (Nat.factorial n) ≤ k := by
  rw [Real.log_le_iff_le_exp (Nat.cast_pos.2 (Nat.factorial_pos _))]
  have h3 : 2718 / 1000 ≤ Real.exp 1 := by have := Real.exp_one_gt_d9; linarith
  have h4 : (Nat.factorial n : ℝ) * 1000 ^ k ≤ 2718 ^ k := by exact_mod_cast h
  calc (Nat.factorial n : ℝ) ≤ (2718 / 1000) ^ k := by rw [div_pow, le_div_iff₀ (by positivity)]; exact h4
    _ ≤ Real.exp 1 ^ k := pow_le_pow_left₀ (by norm_num) h3 _
    _ = Real.exp k := by rw [← Real.exp_nat_mul, mul_one]

theorem log_fact_nonneg (n : ℕ) : 0 ≤ Real.log (Nat.factorial n) := Real.log_nonneg (Nat.one_le_cast.2 (Nat.factorial_pos _))

theorem fact_1000' : Nat.factorial 1000 * 1000 ^ 8192 ≤ 2718 ^ 8192 := by decide +kernel

theorem hyper_entry_inf : hyperEntry doubleMachine 2000 1000 500 = pinf := by
  have R := double_sound.rounding
  have L := double_sound.library
  have g1001 : doubleMachine.lnGamma (fin 1001) = doubleMachine.rnd (Real.log (Nat.factorial 1000)) := by
    have := dbl_lnGamma (n := 1000)
    rwa [show (((1000 : ℕ) : ℝ) + 1) = 1001 by norm_num] at this
  have g501 : doubleMachine.lnGamma (fin 501) = doubleMachine.rnd (Real.log (Nat.factorial 500)) := by
    have := dbl_lnGamma (n := 500)
    rwa [show (((500 : ℕ) : ℝ) + 1) = 501 by norm_num] at this
  have l1000 : ∃ a : ℝ, doubleMachine.lnGamma (fin 1001) = fin a ∧ 5900 ≤ a ∧ a ≤ 2 ^ 13 := by
    rw [g1001]
    have h1 := le_log_fact fact_1000
    have h2 := log_fact_le fact_1000'
    rw [show ((8192 : ℕ) : ℝ) = 2 ^ (13 : ℤ) by norm_num] at h2
    generalize Real.log (Nat.factorial 1000) = z at h1 h2 ⊢
    have g1 := R.mono _ _ h1
    have g2 := R.mono _ _ h2
    rw [dbl_two (by norm_num) (by norm_num)] at g2
    rw [dbl_nat (by norm_num), show ((5900 : ℕ) : ℝ) = 5900 by norm_num] at g1
    obtain ⟨r, er, r1, r2⟩ := between g1 g2
    exact ⟨r, er, r1, by norm_num at r2 ⊢; exact r2⟩
  have l500 : doubleMachine.lnGamma (fin 501) ≤ fin 2612 := by
    rw [g501]
    have h1 := R.mono _ _ (log_fact_le fact_500)
    rw [dbl_nat (by norm_num), show ((2612 : ℕ) : ℝ) = 2612 by norm_num] at h1
    exact h1
  have step : ∀ {a b : XR} {x y : ℝ} {n : ℕ}, fin x ≤ a → a ≤ fin (2 ^ 13) → b ≤ fin y → n < 2 ^ 53 → x - y = n → fin n ≤ doubleMachine.sub a b := by
    intro a b x y n hx ha hb hn e
    have := round_mono (M := doubleMachine) R (sub_le_sub hx (by rintro rfl; exact absurd ha id) hb)
    rw [round_fin, e, dbl_nat hn] at this
    exact this
  obtain ⟨a, ea, a0, a1⟩ := l1000
  have l500' : fin 0 ≤ doubleMachine.lnGamma (fin 501) := by
    rw [g501, ← R.zero]
    exact R.mono _ _ (log_fact_nonneg _)
  have big : doubleMachine.rnd (2 ^ 13) = fin (2 ^ 13) := by have := dbl_two (j := 13) (by norm_num) (by norm_num); norm_num at this ⊢; exact this
  obtain ⟨g, eg, g0, g1⟩ := between l500' l500
  have s1 : fin ((3288 : ℕ) : ℝ) ≤ doubleMachine.sub (fin a) (fin g) :=
    step (x := 5900) (y := 2612) ((fin_le _ _).2 a0) ((fin_le _ _).2 a1) ((fin_le _ _).2 g1) (by norm_num) (by norm_num)
  have s1' : doubleMachine.sub (fin a) (fin g) ≤ fin (2 ^ 13) := by
    rw [sub_fin, ← big]; exact R.mono _ _ (by linarith)
  have s2 : fin ((676 : ℕ) : ℝ) ≤ doubleMachine.sub (doubleMachine.sub (fin a) (fin g)) (fin g) :=
    step (x := 3288) (y := 2612) s1 s1' ((fin_le _ _).2 g1) (by norm_num) (by norm_num)
  have hb : lnBinomial doubleMachine (fin 1000) (fin 500) = doubleMachine.sub (doubleMachine.sub (fin a) (fin g)) (fin g) := by
    have e1 := dbl_add_one (n := 1000) (by norm_num)
    have e2 := dbl_add_one (n := 500) (by norm_num)
    have e3 : doubleMachine.sub (fin 1000) (fin 500) = fin 500 := by
      rw [sub_fin]; have := dbl_nat (n := 500) (by norm_num); norm_num at this ⊢; exact this
    norm_num at e1 e2
    rw [lnBinomial, e3, e1, e2, ea, eg]
  have hb' : fin 676 ≤ lnBinomial doubleMachine (fin 1000) (fin 500) := by rw [hb]; exact_mod_cast s2
  have hb'' : lnBinomial doubleMachine (fin 1000) (fin 500) ≤ fin (2 ^ 13) := by
    rw [hb]
    have : doubleMachine.sub (doubleMachine.sub (fin a) (fin g)) (fin g) ≤ doubleMachine.sub (fin (2 ^ 13)) (fin g) := sub_right R g s1'
    refine le_trans' this ?_
    rw [sub_fin]
    conv_rhs => rw [← big]
    exact R.mono _ _ (by linarith)
  obtain ⟨b, eb, b0, b1⟩ := between hb' hb''
  rw [hyperEntry, show (ofInt (2000 - 1000)) = fin 1000 by norm_num [ofInt], show (ofInt (1000 - 500)) = fin 500 by norm_num [ofInt],
    show ofInt 1000 = fin 1000 by norm_num [ofInt], show ofInt 500 = fin 500 by norm_num [ofInt], eb]
  refine ge_pinf ?_
  rw [← (dbl_exp (le_refl _)).1]
  refine L.exp_mono _ _ ?_
  rw [add_fin]
  have e := dbl_nat (n := 710) (by norm_num)
  norm_num at e
  rw [← e]
  exact R.mono _ _ (by linarith)

/-! ### zero_truncated_poisson_dist with a small mean -/

theorem add_le_add {a b : XR} {x y : ℝ} (h : a ≤ fin x) (g : b ≤ fin y) : a + b ≤ fin (x + y) := by
  cases a with
  | fin a => cases b with
    | fin b => show a + b ≤ x + y; have : a ≤ x := h; have : b ≤ y := g; linarith
    | ninf => exact trivial
    | pinf => exact absurd g id
    | nan => exact absurd g id
  | ninf => cases b with
    | fin b => exact trivial
    | ninf => exact trivial
    | pinf => exact absurd g id
    | nan => exact absurd g id
  | pinf => exact absurd h id
  | nan => exact absurd h id

theorem dbl_near_half {d : ℝ} (h0 : 0 ≤ d) (h : d ≤ 2 ^ (-60 : ℤ)) : doubleMachine.rnd (1 / 2 - d) = fin (1 / 2) := by
  have R := double_sound.rounding
  rcases h0.eq_or_lt with rfl | h0
  · rw [sub_zero]; exact R.half
  have h2 : (2 : ℝ) ^ (-60 : ℤ) ≤ 1 / 4 := by norm_num
  have lo : doubleMachine.rnd (1 / 2 - 2 ^ (-60 : ℤ)) = fin (1 / 2) := by
    have hx : (0 : ℝ) < 1 / 2 - 2 ^ (-60 : ℤ) := by norm_num
    have hl : Int.log 2 (1 / 2 - 2 ^ (-60 : ℤ) : ℝ) = -2 := by
      have a : (2 : ℝ) ^ Int.log 2 (1 / 2 - 2 ^ (-60 : ℤ) : ℝ) < 2 ^ (-1 : ℤ) := (log_le hx).trans_lt (by norm_num)
      have b : (2 : ℝ) ^ (-2 : ℤ) < 2 ^ (Int.log 2 (1 / 2 - 2 ^ (-60 : ℤ) : ℝ) + 1) := lt_of_le_of_lt (by norm_num) lt_log
      have a := (zpow_lt_zpow_iff_right₀ (one_lt_two (α := ℝ))).1 a
      have b := (zpow_lt_zpow_iff_right₀ (one_lt_two (α := ℝ))).1 b
      omega
    have hu : ulpExp 53 (-1074) (1 / 2 - 2 ^ (-60 : ℤ) : ℝ) = -54 := by unfold ulpExp; rw [hl]; norm_num
    have hv : nearestPos 53 (-1074) (1 / 2 - 2 ^ (-60 : ℤ) : ℝ) = 1 / 2 := by
      unfold nearestPos
      rw [hu]
      have : (1 / 2 - 2 ^ (-60 : ℤ) : ℝ) / 2 ^ (-54 : ℤ) = 9007199254740992 - 1 / 64 := by norm_num
      have hf : ⌊(9007199254740992 - 1 / 64 : ℝ)⌋ = 9007199254740991 := by rw [Int.floor_eq_iff]; norm_num
      rw [this, nearestEven, hf, if_neg (by norm_num), if_pos (by norm_num)]
      norm_num
    rw [dbl_rnd, ieee_nonneg hx.le, hv, if_neg]
    rw [not_le]
    exact lt_of_lt_of_le (show (1 / 2 : ℝ) < 1 by norm_num) (one_le_zpow₀ one_le_two (by norm_num))
  have g1 := R.mono (1 / 2 - 2 ^ (-60 : ℤ)) (1 / 2 - d) (_root_.sub_le_sub_left h _)
  have g2 := R.mono (1 / 2 - d) (1 / 2) (by linarith)
  rw [lo] at g1
  rw [R.half] at g2
  obtain ⟨r, er, r1, r2⟩ := between g1 g2
  rw [er, show r = 1 / 2 by linarith]

/-- 2⁻⁶⁰. -/
theorem tiny_lt : (2 : ℝ) ^ (-60 : ℤ) ≤ 1 / 10 ^ 18 := by norm_num

theorem dbl_tiny_exp : doubleMachine.exp (fin (2 ^ (-60 : ℤ))) = fin 1 := by
  show doubleMachine.rnd (Real.exp (2 ^ (-60 : ℤ))) = fin 1
  have h0 : (1 : ℝ) ≤ Real.exp (2 ^ (-60 : ℤ)) := Real.one_le_exp (two_zpow_pos _).le
  have h1 : Real.exp (2 ^ (-60 : ℤ)) ≤ 1 + 2 * 2 ^ (-60 : ℤ) := by
    have := Real.exp_bound_div_one_sub_of_interval (x := 2 ^ (-60 : ℤ)) (two_zpow_pos _).le (by norm_num)
    refine this.trans ?_
    rw [div_le_iff₀ (by norm_num)]; norm_num
  rw [show (1 : ℝ) = (2 ^ 52 : ℕ) * 2 ^ (-52 : ℤ) by norm_num]
  refine ieee_near (by norm_num) (by norm_num) (by norm_num) (by norm_num) ?_ ?_ ?_
  · generalize Real.exp (2 ^ (-60 : ℤ)) = y at h0 h1 ⊢; norm_num; exact h0
  · generalize Real.exp (2 ^ (-60 : ℤ)) = y at h0 h1 ⊢; norm_num; linarith
  · generalize Real.exp (2 ^ (-60 : ℤ)) = y at h0 h1 ⊢; norm_num at h1 ⊢; linarith

theorem dbl_tiny_expm1 : ∃ E : ℝ, doubleMachine.expm1 (fin (2 ^ (-60 : ℤ))) = fin E ∧ 2 ^ (-60 : ℤ) ≤ E := by
  have R := double_sound.rounding
  show ∃ E : ℝ, doubleMachine.rnd (Real.exp (2 ^ (-60 : ℤ)) - 1) = fin E ∧ _
  have h0 : (2 : ℝ) ^ (-60 : ℤ) ≤ Real.exp (2 ^ (-60 : ℤ)) - 1 := by linarith [Real.add_one_le_exp ((2 : ℝ) ^ (-60 : ℤ))]
  have h1 : Real.exp (2 ^ (-60 : ℤ)) - 1 ≤ 2 := by
    have : Real.exp (2 ^ (-60 : ℤ)) ≤ Real.exp 1 := Real.exp_le_exp.2 (by norm_num)
    linarith [Real.exp_one_lt_d9]
  have g0 := R.mono _ _ h0
  have g1 := R.mono _ _ h1
  rw [dbl_two (by norm_num) (by norm_num)] at g0
  rw [R.two] at g1
  obtain ⟨E, e, h, -⟩ := between g0 g1
  exact ⟨E, e, h⟩

theorem dbl_tiny_ln : doubleMachine.ln (fin (2 ^ (-60 : ℤ))) ≤ fin (-41) ∧ fin (-42) ≤ doubleMachine.ln (fin (2 ^ (-60 : ℤ))) := by
  have R := double_sound.rounding
  have e : doubleMachine.ln (fin (2 ^ (-60 : ℤ))) = doubleMachine.rnd (-60 * Real.log 2) := by
    show doubleMachine.round (XR.ln (fin (2 ^ (-60 : ℤ)))) = _
    rw [ln_fin (two_zpow_pos _), round_fin, Real.log_zpow]; norm_num
  have i41 : doubleMachine.rnd (-41) = fin (-41) := R.neg _ (by have := dbl_nat (n := 41) (by norm_num); norm_num at this; exact this)
  have i42 : doubleMachine.rnd (-42) = fin (-42) := R.neg _ (by have := dbl_nat (n := 42) (by norm_num); norm_num at this; exact this)
  rw [e, ← i41, ← i42]
  exact ⟨R.mono _ _ (by linarith [Real.log_two_gt_d9]), R.mono _ _ (by linarith [Real.log_two_lt_d9])⟩

theorem tiny_pdf {x : ℤ} (h : 8 ≤ x) (h' : x ≤ 2 ^ 31) : ∃ d : ℝ, ZTPoisson.pdf doubleMachine (fin (2 ^ (-60 : ℤ))) x = fin d ∧ 0 ≤ d ∧ d ≤ 2 ^ (-60 : ℤ) := by
  have R := double_sound.rounding
  have L := double_sound.library
  obtain ⟨E, eE, hE⟩ := dbl_tiny_expm1
  obtain ⟨n, rfl⟩ := Int.eq_ofNat_of_zero_le (show 0 ≤ x by omega)
  have hx : (8 : ℝ) ≤ (n : ℝ) := by exact_mod_cast h
  obtain ⟨l, el, l1, l2⟩ := between dbl_tiny_ln.2 dbl_tiny_ln.1
  have e1 : doubleMachine.add (ofInt (n : ℤ)) 1 = fin ((n : ℝ) + 1) := by rw [ofInt, Int.cast_natCast]; exact dbl_add_one (by omega)
  have a1 : -doubleMachine.lnGamma (fin ((n : ℝ) + 1)) ≤ fin 0 := by
    have : fin 0 ≤ doubleMachine.lnGamma (fin ((n : ℝ) + 1)) := by
      rw [dbl_lnGamma, ← R.zero]; exact R.mono _ _ (log_fact_nonneg n)
    have := neg_le this
    rwa [neg_fin, neg_zero] at this
  have i328 : doubleMachine.rnd (-328) = fin (-328) := R.neg _ (by have := dbl_nat (n := 328) (by norm_num); norm_num at this; exact this)
  have a2 : doubleMachine.mul (ofInt (n : ℤ)) (fin l) ≤ fin (-328) := by
    rw [ofInt, mul_fin, ← i328, Int.cast_natCast]
    exact R.mono _ _ (by nlinarith)
  have a3 : doubleMachine.add (-doubleMachine.lnGamma (fin ((n : ℝ) + 1))) (doubleMachine.mul (ofInt (n : ℤ)) (fin l)) ≤ fin (-328) := by
    have := round_mono (M := doubleMachine) R (add_le_add a1 a2)
    rwa [round_fin, zero_add, i328] at this
  set z := doubleMachine.add (-doubleMachine.lnGamma (fin ((n : ℝ) + 1))) (doubleMachine.mul (ofInt (n : ℤ)) (fin l)) with hz
  have b0 : fin 0 ≤ doubleMachine.exp z := by rw [← L.exp_ninf]; exact L.exp_mono _ _ (ninf_le a3)
  have b1 : doubleMachine.exp z ≤ fin (2 ^ (-328 : ℤ)) := by
    refine le_trans' (L.exp_mono _ _ a3) ?_
    show doubleMachine.rnd (Real.exp (-328)) ≤ _
    rw [← dbl_two (by norm_num) (by norm_num)]
    refine R.mono _ _ ?_
    have h2 : (2 : ℝ) ≤ Real.exp 1 := by have := Real.exp_one_gt_d9; linarith
    rw [Real.exp_neg, zpow_neg]
    refine inv_anti₀ (two_zpow_pos _) ?_
    calc (2 : ℝ) ^ (328 : ℤ) = 2 ^ 328 := by norm_num
      _ ≤ Real.exp 1 ^ 328 := pow_le_pow_left₀ two_pos.le h2 _
      _ = Real.exp 328 := by rw [← Real.exp_nat_mul]; norm_num
  obtain ⟨y, ey, y0, y1⟩ := between b0 b1
  have E0 : 0 < E := (two_zpow_pos _).trans_le hE
  have ep : ZTPoisson.pdf doubleMachine (fin (2 ^ (-60 : ℤ))) (n : ℤ) = doubleMachine.rnd (y / E) := by
    rw [ZTPoisson.pdf, if_neg (by omega), el, e1, ← hz, ey, eE, div_fin _ E0.ne']
  have c0 : fin 0 ≤ doubleMachine.rnd (y / E) := by rw [← R.zero]; exact R.mono _ _ (div_nonneg y0 E0.le)
  have c1 : doubleMachine.rnd (y / E) ≤ fin (2 ^ (-60 : ℤ)) := by
    rw [← dbl_two (j := -60) (by norm_num) (by norm_num)]
    refine R.mono _ _ ?_
    rw [div_le_iff₀ E0]
    calc y ≤ 2 ^ (-328 : ℤ) := y1
      _ ≤ 2 ^ (-120 : ℤ) := zpow_le_zpow_right₀ one_le_two (by norm_num)
      _ = 2 ^ (-60 : ℤ) * 2 ^ (-60 : ℤ) := by rw [← zpow_add₀ two_ne_zero]; norm_num
      _ ≤ 2 ^ (-60 : ℤ) * E := by gcongr
  obtain ⟨d, ed, d0, d1⟩ := between c0 c1
  exact ⟨d, by rw [ep, ed], d0, d1⟩

theorem tiny_tail : ∀ (fuel : ℕ) (x : ℤ), 7 ≤ x → x + fuel ≤ 2 ^ 31 →
    tailLoop doubleMachine (ZTPoisson.pdf doubleMachine (fin (2 ^ (-60 : ℤ)))) fuel (fin (1 / 2)) x = none
  | 0, _, _, _ => rfl
  | fuel + 1, x, h, h' => by
    rw [tailLoop, if_pos (by rw [zero_def, fin_lt]; norm_num)]
    obtain ⟨d, ed, d0, d1⟩ := tiny_pdf (x := x + 1) (by omega) (by omega)
    rw [ed, sub_fin, dbl_near_half d0 d1]
    exact tiny_tail fuel (x + 1) (by omega) (by omega)

theorem tiny_entry {Q : XR → XR → XR} {x : ℤ} (hx : 1 ≤ x) (hx' : x ≤ 7) (hQ : Q (fin ((x : ℝ) + 1)) (fin (2 ^ (-60 : ℤ))) = fin 1) :
    doubleMachine.div (doubleMachine.sub (doubleMachine.mul (doubleMachine.exp (fin (2 ^ (-60 : ℤ)))) (Q (doubleMachine.add (ofInt x) 1) (fin (2 ^ (-60 : ℤ))))) 1)
      (doubleMachine.expm1 (fin (2 ^ (-60 : ℤ)))) = fin 0 := by
  have R := double_sound.rounding
  obtain ⟨E, eE, hE⟩ := dbl_tiny_expm1
  have E0 : 0 < E := (two_zpow_pos _).trans_le hE
  obtain ⟨n, rfl⟩ := Int.eq_ofNat_of_zero_le (show 0 ≤ x by omega)
  have e1 : doubleMachine.add (ofInt (n : ℤ)) 1 = fin (((n : ℤ) : ℝ) + 1) := by rw [ofInt, Int.cast_natCast]; exact dbl_add_one (by omega)
  rw [e1, hQ, dbl_tiny_exp, eE, mul_fin, mul_one, R.one, one_def, sub_fin, sub_self, R.zero, div_fin _ E0.ne', zero_div, R.zero]

/-- With a mean of 2⁻⁶⁰ all probabilities but the last are computed as 0, and the loop for the tail does not end. -/
theorem ztp_tiny {Q : XR → XR → XR} (hQ : ∀ x : ℤ, 1 ≤ x → x ≤ 7 → Q (fin ((x : ℝ) + 1)) (fin (2 ^ (-60 : ℤ))) = fin 1) :
    ZTPoisson.draw doubleMachine Q (fin (2 ^ (-60 : ℤ))) (fin (1 / 2)) = none ∧
      ∀ x : ℤ, 1 ≤ x → x ≤ 7 → ZTPoisson.cdf doubleMachine Q (fin (2 ^ (-60 : ℤ))) x = 0 := by
  have R := double_sound.rounding
  constructor
  · have e : doubleMachine.mul 2 (fin (2 ^ (-60 : ℤ))) = fin (2 ^ (-59 : ℤ)) := by
      rw [two_def, mul_fin, show (2 : ℝ) * 2 ^ (-60 : ℤ) = 2 ^ (-59 : ℤ) by norm_num, dbl_two (by norm_num) (by norm_num)]
    rw [ztp_draw (N := 7) (v := fin 0) (by norm_num) (by rw [fin_le]; norm_num) (fun x h1 h2 => tiny_entry h1 h2 (hQ x h1 h2)) (le_refl _) (by norm_num)
      (fun x _ h => Or.inl h) ?_, sub_fin, sub_zero, R.half]
    · exact tiny_tail _ _ (le_refl _) (by norm_num)
    · rw [e, ofInt, fin_lt]; norm_num
  · intro x h1 h2
    rw [ZTPoisson.cdf, if_neg (by omega), tiny_entry h1 h2 (hQ x h1 h2), zero_def]

/-- A correctly rounded `GammaQ` is such. -/
theorem tiny_gammaQ {x : ℤ} (h : 0 ≤ x) : doubleMachine.round (GammaQ (fin ((x : ℝ) + 1)) (fin (2 ^ (-60 : ℤ)))) = fin 1 := by
  obtain ⟨n, rfl⟩ := Int.eq_ofNat_of_zero_le h
  have := poisson_cdf (mu := 2 ^ (-60 : ℤ)) (two_zpow_pos _).le n
  have e1 : ofInt (n : ℤ) + 1 = fin (((n : ℤ) : ℝ) + 1) := by rw [ofInt, one_def]; rfl
  rw [e1] at this
  rw [this, round_fin]
  have h0 : ∀ k, 0 ≤ poi (2 ^ (-60 : ℤ)) k := fun k => by unfold poi; positivity
  have hlo : 1 - 2 ^ (-60 : ℤ) ≤ ∑ k ∈ Finset.range (n + 1), poi (2 ^ (-60 : ℤ)) k := by
    refine le_trans ?_ (Finset.single_le_sum (fun k _ => h0 k) (Finset.mem_range.2 (Nat.succ_pos n)))
    have : poi (2 ^ (-60 : ℤ)) 0 = Real.exp (-2 ^ (-60 : ℤ)) := by simp [poi]
    rw [this]
    linarith [Real.add_one_le_exp (-(2 : ℝ) ^ (-60 : ℤ))]
  have hhi : ∑ k ∈ Finset.range (n + 1), poi (2 ^ (-60 : ℤ)) k ≤ 1 := poi_sum_le (two_zpow_pos _).le _
  rw [show ∑ k ∈ Finset.range (n + 1), poi (2 ^ (-60 : ℤ)) k = 1 - (1 - ∑ k ∈ Finset.range (n + 1), poi (2 ^ (-60 : ℤ)) k) by ring]
  exact dbl_near_one (by linarith) (by linarith)

/-! ### Exact arithmetic -/

theorem exact_lnBinomial : Rounded.lnBinomial .exact = XR.lnBinomial := by
  funext n m; simp only [lnBinomial, XR.lnBinomial, Machine.add, Machine.sub, exact_round]; rfl
theorem exact_cumulateFrom (a : XR) (l : List XR) : cumulateFrom .exact a l = Trng.cumulateFrom a l := by
  induction l generalizing a with
  | nil => rfl
  | cons p l ih => simp only [cumulateFrom, Trng.cumulateFrom, Machine.add, exact_round, ih]
theorem exact_cumulate (l : List XR) : cumulate .exact l = Trng.cumulate l := by
  cases l with
  | nil => rfl
  | cons p l => simp only [cumulate, Trng.cumulate, exact_cumulateFrom]
theorem exact_normalize (l : List XR) : normalize .exact l = Trng.normalize l := by
  simp only [normalize, Trng.normalize, Machine.div, exact_round]
  rfl
theorem exact_binomialEntries (lnp lnq : XR) (n k i : ℕ) (b : XR) : binomialEntries .exact lnp lnq n k i b = Binomial.entries lnp lnq n k i b := by
  induction k generalizing i b with
  | zero => rfl
  | succ k ih => simp only [binomialEntries, Binomial.entries, Machine.add, Machine.sub, Machine.mul, exact_round, ih]; rfl
theorem exact_hypergeometric (n m d : ℤ) : hypergeometric .exact n m d = Hypergeometric.construct n m d := by
  simp only [hypergeometric, Hypergeometric.construct, exact_normalize, exact_cumulate, hyperEntry, Hypergeometric.entry, exact_lnBinomial, Machine.add, exact_round]
  rfl
theorem exact_binomial (p : XR) (n : ℕ) : binomial .exact p n = Binomial.construct p n := by
  simp only [binomial, Binomial.construct, exact_normalize, exact_cumulate, exact_binomialEntries, Machine.sub, exact_round]
  rfl
theorem exact_tailLoop (pdf : ℤ → XR) (fuel : ℕ) (p : XR) (x : ℤ) : tailLoop .exact pdf fuel p x = Trng.tailLoop pdf fuel p x := by
  induction fuel generalizing p x with
  | zero => rfl
  | succ k ih => simp only [tailLoop, Trng.tailLoop, Machine.sub, exact_round, ih]
theorem exact_ztCdf : ZTPoisson.cdf .exact GammaQ = Trng.ZTPoisson.cdf := by
  funext mu x
  simp only [ZTPoisson.cdf, Trng.ZTPoisson.cdf, Machine.sub, Machine.add, Machine.mul, Machine.div, exact_round]; rfl
theorem exact_ztPdf : ZTPoisson.pdf .exact = Trng.ZTPoisson.pdf := by
  funext mu x
  simp only [ZTPoisson.pdf, Trng.ZTPoisson.pdf, Machine.add, Machine.mul, Machine.div, exact_round]; rfl
theorem exact_ztTable (mu : XR) (fuel : ℕ) (x : ℤ) : ZTPoisson.tableLoop .exact GammaQ mu fuel x = Trng.ZTPoisson.tableLoop mu fuel x := by
  induction fuel generalizing x with
  | zero => rfl
  | succ k ih =>
    simp only [ZTPoisson.tableLoop, Trng.ZTPoisson.tableLoop, Machine.sub, Machine.add, Machine.mul, Machine.div, exact_round, ih]; rfl
theorem exact_ztDraw (mu u : XR) : ZTPoisson.draw .exact GammaQ mu u = Trng.ZTPoisson.draw mu u := by
  simp only [ZTPoisson.draw, Trng.ZTPoisson.draw, ZTPoisson.table, Trng.ZTPoisson.table, exact_ztTable, exact_ztCdf, exact_ztPdf, tailDraw, Trng.tailDraw,
    exact_tailLoop, Machine.sub, exact_round]
theorem exact_geometric (p : XR) : geometric .exact p = Geometric.construct p := by
  simp only [geometric, Geometric.construct, Machine.sub, Machine.div, exact_round]; rfl
theorem exact_geometricDraw (G : Geometric) (u : XR) : geometricDraw .exact G u = G.draw u := by
  simp only [geometricDraw, Geometric.draw, Machine.mul, exact_round]; rfl
theorem exact_geometricCdf (G : Geometric) (x : ℤ) : geometricCdf .exact G x = G.cdf x := by
  simp only [geometricCdf, Geometric.cdf, Machine.sub, exact_round]; rfl

/-- `cdf` of geometric_dist is a probability. -/
theorem geometric_cdf (S : Sound M) {p : ℝ} (hp0 : 0 ≤ p) (hp1 : p ≤ 1) (x : ℤ) :
    0 ≤ geometricCdf M (geometric M (fin p)) x ∧ geometricCdf M (geometric M (fin p)) x ≤ 1 := by
  have R := S.rounding
  have L := S.library
  rw [zero_def, one_def]
  rw [geometricCdf]
  split_ifs with h
  · rw [zero_def]; exact unit_zero
  · have hq : Unit (M.sub 1 (fin p)) := one_sub_unit R ⟨(fin_le _ _).2 hp0, (fin_le _ _).2 hp1⟩
    have he : fin 0 ≤ ofInt (x + 1) := by rw [ofInt, fin_le]; exact_mod_cast (by omega : 0 ≤ x + 1)
    refine one_sub_unit R ⟨L.pow_nonneg _ _ (Or.inl he) hq.1, ?_⟩
    rw [← L.pow_one _ (Or.inl he)]
    exact L.pow_mono _ _ _ he hq.1 hq.2

end Rounded
end Trng
