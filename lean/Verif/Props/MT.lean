import Verif.Proofs.MT
import Verif.Spec.Engine
import Verif.Spec.MT

/-! C36, C37 and the Mersenne twister parts of C38, C66: mt19937 and mt19937_64.  `call` gives
`none` exactly if `operator()` has undefined behaviour. -/
namespace Trng
open Spec MT

variable {w : Nat} {P : Params w}

/-! ### C36 -/

theorem twist_spec (r : Nat) (hU : ∀ j, j < w → P.UM.getLsbD j = !decide (j < r))
    (hL : ∀ j, j < w → P.LM.getLsbD j = decide (j < r)) (hw : 0 < w) (x y z : BitVec w) :
    ∃ Y : BitVec w, (∀ j, j < w → Y.getLsbD j = if j < r then y.getLsbD j else x.getLsbD j) ∧
      twist P x y z = z ^^^ (Y >>> 1) ^^^ (if Y.getLsbD 0 then P.A else 0) := by
  refine ⟨(x &&& P.UM) ||| (y &&& P.LM), ?_, ?_⟩
  · intro j hj
    rw [BitVec.getLsbD_or, BitVec.getLsbD_and, BitVec.getLsbD_and, hU j hj, hL j hj]
    by_cases h : j < r <;> simp [h]
  · rw [twist]
    congr 1
    generalize (x &&& P.UM) ||| (y &&& P.LM) = Y
    have : Y &&& 1 = if Y.getLsbD 0 then 1 else 0 := by
      apply BitVec.eq_of_getLsbD_eq
      intro i hi
      rw [BitVec.getLsbD_and]
      show (Y.getLsbD i && (1#w).getLsbD i) = _
      rw [BitVec.getLsbD_one]
      rcases Nat.eq_zero_or_pos i with h0 | h0
      · subst h0
        cases h : Y.getLsbD 0
        · simp
        · show _ = (1#w).getLsbD 0
          simp [hw]
      · cases h : Y.getLsbD 0
        · simp; omega
        · show _ = (1#w).getLsbD i
          simp [BitVec.getLsbD_one]; omega
    have h1 : (1 : BitVec w) ≠ 0 := by
      intro hc
      have := congrArg BitVec.toNat hc
      have h2 : (1 : BitVec w).toNat = 1 % 2 ^ w := rfl
      have h3 : (0 : BitVec w).toNat = 0 := by simp
      rw [h2, h3, Nat.mod_eq_of_lt (Nat.one_lt_two_pow (by omega))] at this
      omega
    rw [this]
    cases Y.getLsbD 0
    · simp
    · rw [if_pos rfl, if_neg h1, if_pos rfl]

theorem masks32 : (∀ j, j < 32 → mt19937.UM.getLsbD j = !decide (j < 31)) ∧
    (∀ j, j < 32 → mt19937.LM.getLsbD j = decide (j < 31)) := by decide

theorem masks64 : (∀ j, j < 64 → mt19937_64.UM.getLsbD j = !decide (j < 31)) ∧
    (∀ j, j < 64 → mt19937_64.LM.getLsbD j = decide (j < 31)) := by decide

theorem rec32 (m : Words mt19937) : TwisterRecurrence 624 397 31 0x9908b0df#32 (term good32 m) := by
  intro i
  obtain ⟨Y, h1, h2⟩ := twist_spec (P := mt19937) 31 masks32.1 masks32.2 (by omega) (term good32 m i)
    (term good32 m (i + 1)) (term good32 m (i + mt19937.M))
  exact ⟨Y, h1, (term_add good32 m i).trans h2⟩

theorem rec64 (m : Words mt19937_64) : TwisterRecurrence 312 156 31 0xb5026f5aa96619e9#64 (term good64 m) := by
  intro i
  obtain ⟨Y, h1, h2⟩ := twist_spec (P := mt19937_64) 31 masks64.1 masks64.2 (by omega) (term good64 m i)
    (term good64 m (i + 1)) (term good64 m (i + mt19937_64.M))
  exact ⟨Y, h1, (term_add good64 m i).trans h2⟩

theorem temper32_spec (x : BitVec 32) :
    temper32 x = twisterTemper 11 0xffffffff#32 7 0x9d2c5680#32 15 0xefc60000#32 18 x := by
  rw [temper32, and_allOnes_shr x 11]
  rfl

theorem temper64_spec (x : BitVec 64) : temper64 x =
    twisterTemper 29 0x5555555555555555#64 17 0x71d67fffeda60000#64 37 0xfff7eee000000000#64 43 x := rfl

theorem call_of_ge (hg : Good P) (e : MT P) (h : e.mti ≥ P.N) : call e = call ⟨P.N, e.mt⟩ := by
  rw [call, call]
  simp only
  rw [if_pos h, if_pos le_rfl]
  rw [refill_eq hg]

theorem nth_of_ge (hg : Good P) (e : MT P) (h : e.mti ≥ P.N) (k : Nat) : nth call e k = nth call ⟨P.N, e.mt⟩ k := by
  cases k with
  | zero => exact congrArg Prod.fst (call_of_ge hg e h)
  | succ k =>
    show nth call (call e).2 k = nth call (call ⟨P.N, e.mt⟩).2 k
    rw [call_of_ge hg e h]

theorem nth_term (hg : Good P) (e : MT P) (h0 : 0 ≤ e.mti) (k : Nat) :
    nth call e k = some (P.temper (term hg e.mt (min e.mti.toNat P.N + k))) := by
  by_cases h : e.mti ≥ P.N
  · rw [nth_of_ge hg e h, show min e.mti.toNat P.N = P.N by omega]
    have := (holds_self hg (⟨P.N, e.mt⟩ : MT P) (by show (0 : Int) ≤ P.N; omega) le_rfl).nth hg (term_add hg e.mt) k
    exact this
  · rw [show min e.mti.toNat P.N = e.mti.toNat by omega]
    exact (holds_self hg e h0 (by omega)).nth hg (term_add hg e.mt) k

/-- mt19937: from every state with a non-negative position, every call is defined and returns the
tempered terms of the recurrence that continues the stored words. -/
theorem C36_mt19937 (e : MT mt19937) (h0 : 0 ≤ e.mti) :
    ∃ X : Nat → BitVec 32, (∀ i : Fin 624, X i.val = e.mt i) ∧ TwisterRecurrence 624 397 31 0x9908b0df#32 X ∧
      ∀ k, nth call e k =
        some (twisterTemper 11 0xffffffff#32 7 0x9d2c5680#32 15 0xefc60000#32 18 (X (min e.mti.toNat 624 + k))) := by
  refine ⟨term good32 e.mt, fun i => term_lt good32 e.mt i.val i.isLt, rec32 _, fun k => ?_⟩
  rw [nth_term good32 e h0, ← temper32_spec]
  rfl

/-- mt19937_64 likewise. -/
theorem C36_mt19937_64 (e : MT mt19937_64) (h0 : 0 ≤ e.mti) :
    ∃ X : Nat → BitVec 64, (∀ i : Fin 312, X i.val = e.mt i) ∧ TwisterRecurrence 312 156 31 0xb5026f5aa96619e9#64 X ∧
      ∀ k, nth call e k = some (twisterTemper 29 0x5555555555555555#64 17 0x71d67fffeda60000#64 37 0xfff7eee000000000#64 43
        (X (min e.mti.toNat 312 + k))) := by
  refine ⟨term good64 e.mt, fun i => term_lt good64 e.mt i.val i.isLt, rec64 _, fun k => ?_⟩
  rw [nth_term good64 e h0, ← temper64_spec]
  rfl

theorem seed_terms (hg : Good P) (e : MT P) (s : BitVec 64) (hsh : P.shift = w - 2) :
    TwisterSeed P.N P.mult s.toNat (term hg (e.seed s).mt) := by
  have h2 := hg.two_le
  have hmt : ∀ i (hi : i < P.N), (e.seed s).mt ⟨i, hi⟩ = (List.range i).foldl (fun (x : BitVec w) k =>
    P.mult * (x ^^^ (x >>> P.shift)) + BitVec.ofNat w (k + 1)) (s.setWidth w) := fun _ _ => rfl
  constructor
  · rw [term_lt hg _ 0 (by omega), hmt, List.range_zero, List.foldl_nil]
    apply BitVec.eq_of_toNat_eq
    rw [BitVec.toNat_setWidth, BitVec.toNat_ofNat]
  · intro i h1 hi
    rw [term_lt hg _ i hi, term_lt hg _ (i - 1) (by omega), Nat.mod_eq_of_lt hi, hmt, hmt]
    obtain ⟨j, rfl⟩ : ∃ j, i = j + 1 := ⟨i - 1, by omega⟩
    rw [List.range_succ, List.foldl_append, List.foldl_cons, List.foldl_nil, hsh, Nat.add_sub_cancel]

/-- A seeded mt19937 returns exactly the sequence of `std::mt19937` of the C++ standard. -/
theorem C36_mt19937_standard (e : MT mt19937) (s : BitVec 64) :
    ∃ X : Nat → BitVec 32, TwisterSeed 624 1812433253#32 s.toNat X ∧ TwisterRecurrence 624 397 31 0x9908b0df#32 X ∧
      ∀ k, nth call (e.seed s) k =
        some (twisterTemper 11 0xffffffff#32 7 0x9d2c5680#32 15 0xefc60000#32 18 (X (624 + k))) := by
  refine ⟨_, seed_terms good32 e s rfl, rec32 _, fun k => ?_⟩
  rw [nth_term good32 _ (by show (0 : Int) ≤ 624; omega), ← temper32_spec]
  rfl

/-- A seeded mt19937_64 returns exactly the sequence of `std::mt19937_64`. -/
theorem C36_mt19937_64_standard (e : MT mt19937_64) (s : BitVec 64) :
    ∃ X : Nat → BitVec 64, TwisterSeed 312 6364136223846793005#64 s.toNat X ∧
      TwisterRecurrence 312 156 31 0xb5026f5aa96619e9#64 X ∧
      ∀ k, nth call (e.seed s) k = some (twisterTemper 29 0x5555555555555555#64 17 0x71d67fffeda60000#64 37
        0xfff7eee000000000#64 43 (X (312 + k))) := by
  refine ⟨_, seed_terms good64 e s rfl, rec64 _, fun k => ?_⟩
  rw [nth_term good64 _ (by show (0 : Int) ≤ 312; omega), ← temper64_spec]
  rfl

/-- The position is non-negative and at most `N` after seeding and after any number of calls. -/
theorem C36_mt_position (hg : Good P) (e : MT P) (s : BitVec 64) (n : Nat) :
    0 ≤ (afterCalls call n (e.seed s)).mti ∧ (afterCalls call n (e.seed s)).mti ≤ P.N := by
  have h0 : Holds (term hg (e.seed s).mt) (e.seed s) 0 (e.seed s).mti.toNat :=
    holds_self hg _ (by show (0 : Int) ≤ P.N; omega) (le_refl (P.N : Int))
  obtain ⟨b, hb⟩ := h0.afterCalls hg (term_add hg _) n
  have h1 := hb.pos
  have h2 := hb.le
  have h3 := hb.ge
  constructor <;> omega

example : Good mt19937 ∧ Good mt19937_64 := ⟨good32, good64⟩

/-- A negative position (`operator>>` accepts one) makes the next call undefined. -/
theorem C36_mt_negative_undefined (e : MT P) (h : e.mti < 0) : (call e).1 = none := by
  have hN : ¬ e.mti ≥ P.N := by omega
  have hr : read e.mt e.mti = none := by rw [MT.read, dif_neg (by omega)]
  simp only [call, if_neg hN, hr]

/-! ### C37 -/

/-- `discard(n)` is `n` calls. -/
theorem C37_mt_discard (e : MT P) (n : BitVec 64) : e.discard n = afterCalls call n.toNat e := by
  rw [MT.discard, afterCalls_eq_iterate]
  generalize n.toNat = k
  induction k with
  | zero => rfl
  | succ k ih => rw [Nat.repeat, ih, Function.iterate_succ_apply']

/-- The tempering is a bijection, and every word is returned in some state. -/
theorem C37_mt19937_temper : Function.Bijective mt19937.temper ∧ ∀ v, ∃ e : MT mt19937, (call e).1 = some v := by
  have hb : Function.Bijective temper32 := Finite.injective_iff_bijective.1 temper32_inj
  refine ⟨hb, fun v => ?_⟩
  obtain ⟨x, hx⟩ := hb.2 v
  refine ⟨⟨0, fun _ => x⟩, ?_⟩
  have : nth call (⟨0, fun _ => x⟩ : MT mt19937) 0 = some (temper32 (term good32 (fun _ => x) 0)) :=
    nth_term good32 (⟨0, fun _ => x⟩ : MT mt19937) le_rfl 0
  rw [term_lt good32 _ 0 (by decide), hx] at this
  exact this

/-- The same for mt19937_64. -/
theorem C37_mt19937_64_temper : Function.Bijective mt19937_64.temper ∧ ∀ v, ∃ e : MT mt19937_64, (call e).1 = some v := by
  have hb : Function.Bijective temper64 := Finite.injective_iff_bijective.1 temper64_inj
  refine ⟨hb, fun v => ?_⟩
  obtain ⟨x, hx⟩ := hb.2 v
  refine ⟨⟨0, fun _ => x⟩, ?_⟩
  have : nth call (⟨0, fun _ => x⟩ : MT mt19937_64) 0 = some (temper64 (term good64 (fun _ => x) 0)) :=
    nth_term good64 (⟨0, fun _ => x⟩ : MT mt19937_64) le_rfl 0
  rw [term_lt good64 _ 0 (by decide), hx] at this
  exact this

/-! ### C38, C66 -/

theorem mulA_inj (a : BitVec w) (ha : a.getLsbD (w - 1) = true) :
    Function.Injective fun Y : BitVec w => (Y >>> 1) ^^^ (if Y.getLsbD 0 then a else 0) := by
  intro Y Z h
  simp only at h
  have hw : 0 < w := by
    rcases Nat.eq_zero_or_pos w with h0 | h0
    · subst h0; simp [BitVec.eq_nil a] at ha
    · exact h0
  have hlow : Y.getLsbD 0 = Z.getLsbD 0 := by
    have e := congrArg (fun z => z.getLsbD (w - 1)) h
    simp only [BitVec.getLsbD_xor, BitVec.getLsbD_ushiftRight] at e
    rw [BitVec.getLsbD_of_ge Y (1 + (w - 1)) (by omega), BitVec.getLsbD_of_ge Z (1 + (w - 1)) (by omega)] at e
    cases hY : Y.getLsbD 0 <;> cases hZ : Z.getLsbD 0 <;> simp [hY, hZ, ha] at e ⊢
  apply BitVec.eq_of_getLsbD_eq
  intro i hi
  rcases Nat.eq_zero_or_pos i with h0 | h0
  · subst h0; exact hlow
  · rw [hlow] at h
    have e := congrArg (fun z => z.getLsbD (i - 1)) h
    simp only [BitVec.getLsbD_xor, BitVec.getLsbD_ushiftRight] at e
    rw [show 1 + (i - 1) = i by omega] at e
    exact Bool.xor_right_inj.1 (by rwa [Bool.xor_comm, Bool.xor_comm (Z.getLsbD i)] at e)

/-- Two sequences with the recurrence that agree from some place on agree from place 1 on. -/
theorem twister_back {n m r : Nat} {a : BitVec w} (ha : a.getLsbD (w - 1) = true) (hm : 2 ≤ m) (hn : 2 ≤ n)
    {X X' : Nat → BitVec w} (hX : TwisterRecurrence n m r a X) (hX' : TwisterRecurrence n m r a X') (K : Nat)
    (hK : ∀ i, K ≤ i → X i = X' i) (i : Nat) (hi : 1 ≤ i) : X i = X' i := by
  induction K with
  | zero => exact hK i (by omega)
  | succ K ih =>
    by_cases hK0 : K = 0
    · exact hK i (by omega)
    apply ih
    intro j hj
    rcases Nat.lt_or_ge K j with h | h
    · exact hK j h
    obtain rfl : j = K := by omega
    have key : ∀ q, j ≤ q + 1 → ∀ p, p < w →
        (if p < r then (X (q + 1)).getLsbD p else (X q).getLsbD p) =
        (if p < r then (X' (q + 1)).getLsbD p else (X' q).getLsbD p) := by
      intro q hq p hp
      obtain ⟨Y, h1, h2⟩ := hX q
      obtain ⟨Y', h1', h2'⟩ := hX' q
      have hYY : Y = Y' := by
        apply mulA_inj a ha
        rw [hK (q + n) (by omega), hK (q + m) (by omega), BitVec.xor_assoc] at h2
        rw [h2, BitVec.xor_assoc] at h2'
        exact (BitVec.xor_right_inj _).1 h2'
      rw [← h1 p hp, ← h1' p hp, hYY]
    apply BitVec.eq_of_getLsbD_eq
    intro p hp
    by_cases hpr : p < r
    · have := key (j - 1) (by omega) p hp
      rwa [if_pos hpr, if_pos hpr, show j - 1 + 1 = j by omega] at this
    · have := key j (by omega) p hp
      rwa [if_neg hpr, if_neg hpr] at this

theorem twister_zero (n m r : Nat) (a : BitVec w) : TwisterRecurrence n m r a fun _ => 0 := by
  intro i
  refine ⟨0, fun j _ => ?_, ?_⟩
  · show (0#w).getLsbD j = if j < r then (0#w).getLsbD j else (0#w).getLsbD j
    split <;> rfl
  · show 0#w = 0#w ^^^ (0#w >>> 1) ^^^ (if (0#w).getLsbD 0 then a else 0)
    simp

/-- A sequence with the recurrence that is constant from some place on vanishes from 1 on. -/
theorem twister_const {n m r : Nat} {a : BitVec w} (ha : a.getLsbD (w - 1) = true) (hm : 2 ≤ m) (hn : 2 ≤ n)
    {X : Nat → BitVec w} (hX : TwisterRecurrence n m r a X) (K : Nat) (hK : ∀ i, K ≤ i → X (i + 1) = X i) (i : Nat)
    (hi : 1 ≤ i) : X i = 0 := by
  have hc : ∀ j, X (K + j) = X K := by
    intro j
    induction j with
    | zero => rfl
    | succ j ih => rw [← Nat.add_assoc, hK _ (by omega), ih]
  have hz : X K = 0 := by
    obtain ⟨Y, h1, h2⟩ := hX K
    rw [hc, hc, BitVec.xor_assoc] at h2
    have h3 : (Y >>> 1) ^^^ (if Y.getLsbD 0 then a else 0) = 0 := by
      apply (BitVec.xor_right_inj (X K)).1
      rw [← h2]; exact BitVec.xor_zero.symm
    have h4 : Y = 0 := by
      apply mulA_inj a ha
      simp only
      rw [h3]
      show 0#w = (0#w >>> 1) ^^^ (if (0#w).getLsbD 0 then a else 0)
      simp
    apply BitVec.eq_of_getLsbD_eq
    intro j hj
    have := h1 j hj
    rw [hc 1] at this
    rw [← h4, this]
    split <;> rfl
  exact twister_back ha hm hn hX (twister_zero n m r a) K
    (fun i hi => by
      obtain ⟨j, rfl⟩ : ∃ j, i = K + j := ⟨i - K, by omega⟩
      rw [hc, hz]) i hi

theorem eq_of_mt (e e' : MT P) (h : e.mt = e'.mt) : e.eq e' = true := by
  rw [MT.eq, h]; simp

theorem call_mt_of_lt (e : MT P) (h0 : 0 ≤ e.mti) (h1 : e.mti < P.N) : (call e).2 = ⟨e.mti + 1, e.mt⟩ := by
  have hN : ¬ e.mti ≥ P.N := by omega
  simp only [call, if_neg hN]
  rw [MT.read, dif_pos ⟨h0, h1⟩]

/-- After seeding with any seed and one call, one more call changes what the engine will return,
but `operator==` does not see it. -/
theorem mt_eq_wrong (hg : Good P) (r : Nat) (a : BitVec w) (ha : a.getLsbD (w - 1) = true) (hm : 2 ≤ P.M) (h3 : 3 ≤ P.N)
    (hrec : ∀ m, TwisterRecurrence P.N P.M r a (term hg m)) (hsh : P.shift = w - 2) (hw : 2 ≤ w)
    (ht : Function.Injective P.temper) (e : MT P) (s : BitVec 64) :
    let e1 := (call (e.seed s)).2
    e1.eq (call e1).2 = true ∧ ¬ SameFuture call e1 (call e1).2 := by
  intro e1
  have hs : (0 : Int) ≤ (e.seed s).mti := by show (0 : Int) ≤ P.N; omega
  constructor
  · have h1 : e1.mti = 1 := by
      show (call (e.seed s)).2.mti = 1
      have : (e.seed s).mti ≥ P.N := le_refl (P.N : Int)
      simp only [call, if_pos this, refill_eq hg]
      rw [MT.read, dif_pos ⟨le_rfl, by omega⟩]
      rfl
    apply eq_of_mt
    rw [call_mt_of_lt e1 (by omega) (by omega)]
  · intro hsame
    have hconst : ∀ i, P.N + 1 ≤ i → term hg (e.seed s).mt (i + 1) = term hg (e.seed s).mt i := by
      intro i hi
      have h := hsame (i - P.N - 1)
      change nth call (e.seed s) (i - P.N - 1 + 1) = nth call (e.seed s) (i - P.N - 1 + 2) at h
      rw [nth_term hg _ hs, nth_term hg _ hs] at h
      have h := ht (Option.some.inj h)
      have hmin : min (e.seed s).mti.toNat P.N = P.N := by
        show min (P.N : Int).toNat P.N = P.N
        omega
      rw [hmin, show P.N + (i - P.N - 1 + 1) = i by omega, show P.N + (i - P.N - 1 + 2) = i + 1 by omega] at h
      exact h.symm
    have hz := twister_const ha hm hg.two_le (hrec (e.seed s).mt) (P.N + 1) hconst
    have h2 := (seed_terms hg e s hsh).2 2 (by omega) (by omega)
    rw [hz 2 (by omega), show 2 - 1 = 1 from rfl, hz 1 (by omega), Nat.mod_eq_of_lt h3] at h2
    have h4 : (0 : BitVec w) = BitVec.ofNat w 2 := by
      rw [h2]
      show P.mult * (0#w ^^^ (0#w >>> (w - 2))) + BitVec.ofNat w 2 = _
      simp
    rcases Nat.eq_or_lt_of_le hw with h5 | h5
    · subst h5
      exact absurd h4 (by decide)
    · have := congrArg BitVec.toNat h4
      rw [BitVec.toNat_ofNat, Nat.mod_eq_of_lt] at this
      · simp at this
      · calc 2 < 2 ^ 2 := by decide
          _ ≤ 2 ^ w := Nat.pow_le_pow_right (by omega) hw

theorem C38_mt19937_eq_wrong (e : MT mt19937) (s : BitVec 64) :
    let e1 := (call (e.seed s)).2
    e1.eq (call e1).2 = true ∧ ¬ SameFuture call e1 (call e1).2 :=
  mt_eq_wrong good32 31 _ (by decide) (by decide) (by decide) rec32 rfl (by omega) temper32_inj e s

theorem C38_mt19937_64_eq_wrong (e : MT mt19937_64) (s : BitVec 64) :
    let e1 := (call (e.seed s)).2
    e1.eq (call e1).2 = true ∧ ¬ SameFuture call e1 (call e1).2 :=
  mt_eq_wrong good64 31 _ (by decide) (by decide) (by decide) rec64 rfl (by omega) temper64_inj e s

/-- Engines that compare equal and are in the same position do have the same future. -/
theorem C38_mt_eq_partial (e e' : MT P) (h : e.eq e' = true) (hp : e.mti = e'.mti) : SameFuture call e e' := by
  have : e = e' := by
    rw [MT.eq, List.all_eq_true] at h
    cases e; cases e'
    congr 1
    funext i
    exact of_decide_eq_true (h i (List.mem_finRange i))
  subst this
  exact fun _ => rfl

example : MT.eq (default : MT mt19937) default = true ∧ (default : MT mt19937).mti = 624 :=
  ⟨eq_of_mt _ _ rfl, rfl⟩

theorem mt_seed_distinct (hg : Good P) (r : Nat) (a : BitVec w) (ha : a.getLsbD (w - 1) = true) (hm : 2 ≤ P.M)
    (hrec : ∀ m, TwisterRecurrence P.N P.M r a (term hg m)) (hsh : P.shift = w - 2) (hw : 2 < w)
    (ht : Function.Injective P.temper) (g : BitVec w) (hgm : g * P.mult = 1) (e e' : MT P) (s s' : BitVec 64)
    (hsame : SameFuture call (e.seed s) (e'.seed s')) : s.setWidth w = s'.setWidth w := by
  have h2 := hg.two_le
  have hs : ∀ (e : MT P) s, (0 : Int) ≤ (e.seed s).mti := by intro e s; show (0 : Int) ≤ P.N; omega
  have hmin : ∀ (e : MT P) s, min (e.seed s).mti.toNat P.N = P.N := by
    intro e s
    show min (P.N : Int).toNat P.N = P.N
    omega
  have h1 := twister_back ha hm hg.two_le (hrec (e.seed s).mt) (hrec (e'.seed s').mt) P.N (fun i hi => by
    have h := hsame (i - P.N)
    rw [nth_term hg _ (hs _ _), nth_term hg _ (hs _ _), hmin, hmin] at h
    have h := ht (Option.some.inj h)
    rwa [show P.N + (i - P.N) = i by omega] at h) 1 le_rfl
  have a1 := (seed_terms hg e s hsh).2 1 le_rfl (by omega)
  have a2 := (seed_terms hg e' s' hsh).2 1 le_rfl (by omega)
  rw [a1, a2, show 1 - 1 = 0 from rfl] at h1
  have h3 := add_right_cancel h1
  have h4 := congrArg (g * ·) h3
  simp only [← mul_assoc, hgm, one_mul] at h4
  rw [and_allOnes_shr, and_allOnes_shr _ (w - 2)] at h4
  have h5 := shr_inj (w - 2) (by omega) _ h4
  rw [(seed_terms hg e s hsh).1, (seed_terms hg e' s' hsh).1] at h5
  apply BitVec.eq_of_toNat_eq
  have := congrArg BitVec.toNat h5
  rwa [BitVec.toNat_ofNat, BitVec.toNat_ofNat, ← BitVec.toNat_setWidth, ← BitVec.toNat_setWidth] at this

/-- mt19937: seeding forgets the history; exactly seeds that differ in the lower 32 bits give
different sequences. -/
theorem C66_mt19937_seed (e e' : MT mt19937) (s s' : BitVec 64) :
    SameFuture call (e.seed s) (e'.seed s') ↔ s.setWidth 32 = s'.setWidth 32 := by
  constructor
  · exact mt_seed_distinct good32 31 _ (by decide) (by decide) rec32 rfl (by omega) temper32_inj 2520285293#32
      (by decide) e e' s s'
  · intro h
    have : e.seed s = e'.seed s' := by simp only [MT.seed, h]
    rw [this]
    exact fun _ => rfl

/-- mt19937_64: different seeds give different sequences. -/
theorem C66_mt19937_64_seed (e e' : MT mt19937_64) (s s' : BitVec 64) :
    SameFuture call (e.seed s) (e'.seed s') ↔ s = s' := by
  constructor
  · intro h
    have := mt_seed_distinct good64 31 _ (by decide) (by decide) rec64 rfl (by omega) temper64_inj
      13877824140714322085#64 (by decide) e e' s s' h
    simpa using this
  · rintro rfl
    exact fun _ => rfl

end Trng
