import Verif.Props.MT
import Verif.Proofs.MTPeriod
import Verif.Proofs.MTPrim32
import Verif.Proofs.MTPrim64

/-! C75: period and equidistribution of mt19937 and mt19937_64. -/
namespace Trng
open Spec MT

namespace MT

theorem full32 : Full 624 397 31 19937 0x9908b0df#32 where
  m_pos := by omega
  m_lt := by omega
  r_pos := by omega
  r_lt := by omega
  len := by omega
  prim := by
    have h : charNat 624 397 31 (0x9908b0df#32).toNat (32 - 1) 0 1 = fpoly32 := charNat32
    rw [h]
    exact Prim.of_check (by omega) Mersenne.prime_19937 shape32 frob32

theorem full64 : Full 312 156 31 19937 0xb5026f5aa96619e9#64 where
  m_pos := by omega
  m_lt := by omega
  r_pos := by omega
  r_lt := by omega
  len := by omega
  prim := by
    have h : charNat 312 156 31 (0xb5026f5aa96619e9#64).toNat (64 - 1) 0 1 = fpoly64 := charNat64
    rw [h]
    exact Prim.of_check (by omega) Mersenne.prime_19937 shape64 frob64

variable {w : Nat} {P : Params w} {r L : Nat}

/-- `e` is not a state from which only zeros come: some bit other than the `r` lowest bits of the
first word is set. -/
def Live (r : Nat) (e : MT P) : Prop := ∃ (i : Fin P.N) (j : Nat), (e.mt i).getLsbD j = true ∧ (i.val ≠ 0 ∨ r ≤ j)

theorem Live.nonzero (hg : Good P) (hA : P.A.getLsbD (w - 1) = true) {e : MT P} (h : Live r e)
    (hrec : TwisterRecurrence P.N P.M r P.A (term hg e.mt)) : Nonzero (term hg e.mt) := by
  obtain ⟨i, j, hij, hor⟩ := h
  by_contra hc
  have hz : ∀ k, 1 ≤ k → term hg e.mt k = 0 := fun k hk => by
    by_contra h0; exact hc ⟨k, hk, h0⟩
  have hjw : j < w := by
    by_contra hge
    rw [BitVec.getLsbD_of_ge _ _ (by omega)] at hij
    exact absurd hij (by simp)
  by_cases hi : i.val = 0
  · have hrj : r ≤ j := hor.resolve_left (fun h => h hi)
    obtain ⟨Y, h1, h2⟩ := hrec 0
    have hM := hg.M_pos
    have hM2 := hg.M_lt
    rw [hz _ (by omega), hz _ (by omega), BitVec.xor_assoc] at h2
    have h3 : (Y >>> 1) ^^^ (if Y.getLsbD 0 then P.A else 0) = 0 := by
      rw [BitVec.ofNat_eq_ofNat, BitVec.zero_xor] at h2
      exact h2.symm
    have h4 : Y = 0 := by
      apply mulA_inj P.A hA
      simp only
      rw [h3]
      show 0#w = (0#w >>> 1) ^^^ (if (0#w).getLsbD 0 then P.A else 0)
      simp
    have h5 := h1 j hjw
    rw [if_neg (by omega), h4, term_lt hg _ 0 (by omega)] at h5
    have : i = ⟨0, by omega⟩ := Fin.ext hi
    rw [this] at hij
    rw [hij] at h5
    simp at h5
  · have := hz i.val (by omega)
    rw [term_lt hg _ _ i.isLt] at this
    rw [this] at hij
    simp at hij

theorem output_period (hg : Good P) (hF : Full P.N P.M r L P.A) (ht : Function.Injective P.temper)
    (hA : P.A.getLsbD (w - 1) = true) (e : MT P) (hrec : TwisterRecurrence P.N P.M r P.A (term hg e.mt))
    (h1 : 1 ≤ e.mti) (hl : Live r e) : ExactOutputPeriod call e (2 ^ L - 1) := by
  have hne := hl.nonzero hg hA hrec
  have hN := hg.two_le
  obtain ⟨p, hp⟩ : ∃ p, min e.mti.toNat P.N = p + 1 := ⟨min e.mti.toNat P.N - 1, by omega⟩
  have hnth : ∀ k, nth call e k = some (P.temper (term hg e.mt (k + p + 1))) := by
    intro k
    rw [nth_term hg e (by omega), hp, show p + 1 + k = k + p + 1 by omega]
  have hT : 0 < 2 ^ L - 1 := by
    have := hF.r_lt
    have : 1 ≤ L := by rw [hF.len]; omega
    have : 2 ^ 1 ≤ 2 ^ L := Nat.pow_le_pow_right (by omega) this
    omega
  refine ⟨hT, fun k => ?_, fun t h0 htT => ?_⟩
  · rw [hnth, hnth]
    have := (hF.period_iff hrec hne (p + (2 ^ L - 1)) p).2 (by rw [Nat.ModEq, Nat.add_mod_right]) k
    rw [show k + (2 ^ L - 1) + p + 1 = k + (p + (2 ^ L - 1)) + 1 by omega, this]
  · by_contra hc
    push Not at hc
    have key : ∀ k, term hg e.mt (k + (p + t) + 1) = term hg e.mt (k + p + 1) := by
      intro k
      have := hc k
      rw [hnth, hnth, Option.some.injEq] at this
      have := ht this
      rwa [show k + t + p + 1 = k + (p + t) + 1 by omega] at this
    have := (hF.period_iff hrec hne (p + t) p).1 key
    have := Nat.ModEq.add_left_cancel' (c := p) (a := t) (b := 0) this
    have := Nat.le_of_dvd h0 (Nat.modEq_zero_iff_dvd.1 this)
    omega

theorem output_count (hg : Good P) (hF : Full P.N P.M r L P.A) (ht : Function.Bijective P.temper) (ht0 : P.temper 0 = 0)
    (hA : P.A.getLsbD (w - 1) = true) (e : MT P) (hrec : TwisterRecurrence P.N P.M r P.A (term hg e.mt))
    (h1 : 1 ≤ e.mti) (hl : Live r e) (v : Fin (P.N - 1) → BitVec w) :
    ((Finset.range (2 ^ L - 1)).filter fun k => ∀ i : Fin (P.N - 1), nth call e (k + i.val) = some (v i)).card =
      if v = (fun _ => 0) then 2 ^ (w - r) - 1 else 2 ^ (w - r) := by
  have hne := hl.nonzero hg hA hrec
  have hN := hg.two_le
  obtain ⟨p, hp⟩ : ∃ p, min e.mti.toNat P.N = p + 1 := ⟨min e.mti.toNat P.N - 1, by omega⟩
  choose u hu using fun i => ht.2 (v i)
  have hc := hF.count hrec hne p u
  have e1 : ((Finset.range (2 ^ L - 1)).filter fun k => ∀ i : Fin (P.N - 1), nth call e (k + i.val) = some (v i)) =
      (Finset.range (2 ^ L - 1)).filter fun k => ∀ i : Fin (P.N - 1), term hg e.mt (p + 1 + k + i.val) = u i := by
    apply Finset.filter_congr
    intro k _
    refine forall_congr' fun i => ?_
    rw [nth_term hg e (by omega), hp, Option.some.injEq, ← hu, ht.1.eq_iff, ← Nat.add_assoc]
  have e2 : (v = fun _ => 0) ↔ (u = fun _ => 0) := by
    constructor
    · intro h
      funext i
      apply ht.1
      rw [hu, h, ht0]
    · intro h
      funext i
      rw [← hu, h, ht0]
  rw [e1, hc]
  by_cases h : v = fun _ => 0
  · rw [if_pos h, if_pos (e2.1 h)]
  · rw [if_neg h, if_neg (fun h' => h (e2.2 h'))]

theorem call_mti (hg : Good P) (e : MT P) (h0 : 0 ≤ e.mti) (h1 : e.mti ≤ P.N) :
    (call e).2.mti = if e.mti = P.N then 1 else e.mti + 1 := by
  have h2 := hg.two_le
  rw [call]
  simp only
  by_cases h : e.mti = P.N
  · rw [if_pos (by omega), if_pos h, refill_eq hg]
    simp only
    rw [read, dif_pos ⟨le_rfl, by omega⟩]
    rfl
  · rw [if_neg (by omega), if_neg h, read, dif_pos ⟨h0, by omega⟩]

/-- the object after the first call and `k` more -/
theorem after_seed (hg : Good P) (e : MT P) (s : BitVec 64) (k : Nat) :
    (afterCalls call k (call (e.seed s)).2).mti = ((k % P.N + 1 : Nat) : Int) ∧
    ∀ j : Fin P.N, (afterCalls call k (call (e.seed s)).2).mt j = term hg (e.seed s).mt (P.N + P.N * (k / P.N) + j.val) := by
  have h2 := hg.two_le
  have hh : Holds (term hg (e.seed s).mt) (e.seed s) 0 P.N :=
    holds_self hg _ (by show (0 : Int) ≤ P.N; omega) (le_refl (P.N : Int))
  have hs : (e.seed s).mti = P.N := rfl
  have hm : ∀ k, (afterCalls call k (call (e.seed s)).2).mti = ((k % P.N + 1 : Nat) : Int) := by
    intro k
    induction k with
    | zero =>
      rw [Nat.zero_mod]
      show (call (e.seed s)).2.mti = _
      rw [call_mti hg _ (by rw [hs]; omega) (by rw [hs]), if_pos hs]
      rfl
    | succ k ih =>
      have hlt := Nat.mod_lt k (show 0 < P.N by omega)
      rw [afterCalls_eq_iterate, Function.iterate_succ_apply', ← afterCalls_eq_iterate,
        call_mti hg _ (by rw [ih]; omega) (by rw [ih]; omega), ih]
      by_cases h : k % P.N + 1 = P.N
      · rw [if_pos (by omega)]
        have : (k + 1) % P.N = 0 := by
          rw [Nat.add_mod, Nat.mod_eq_of_lt (show 1 < P.N by omega), h, Nat.mod_self]
        rw [this]; rfl
      · rw [if_neg (by omega)]
        have : (k + 1) % P.N = k % P.N + 1 := by
          rw [Nat.add_mod, Nat.mod_eq_of_lt (show 1 < P.N by omega), Nat.mod_eq_of_lt (by omega)]
        rw [this]; push_cast; ring
  refine ⟨hm k, fun j => ?_⟩
  obtain ⟨b, hb⟩ := hh.afterCalls hg (term_add hg _) (k + 1)
  have hb' : Holds (term hg (e.seed s).mt) (afterCalls call k (call (e.seed s)).2) b (P.N + (k + 1)) := hb
  have hp := hb'.pos
  rw [hm k] at hp
  have hd := Nat.div_add_mod k P.N
  rw [hb'.words j]
  congr 2
  push_cast at hp
  zify
  zify at hd
  omega

theorem object_period (hg : Good P) (hF : Full P.N P.M r L P.A) (hA : P.A.getLsbD (w - 1) = true) (e : MT P) (s : BitVec 64)
    (hrec : TwisterRecurrence P.N P.M r P.A (term hg (e.seed s).mt)) (hl : Live r (e.seed s))
    (hp : (2 ^ L - 1).Prime) (hN : P.N < 2 ^ L - 1) :
    ExactPeriod call (call (e.seed s)).2 (P.N * (2 ^ L - 1)) := by
  have hne := hl.nonzero hg hA hrec
  have h2 := hg.two_le
  generalize hT : 2 ^ L - 1 = T at hp hN
  have hper := hF.period_iff hrec hne
  rw [hT] at hper
  have hcop : Nat.Coprime T P.N := by
    rw [hp.coprime_iff_not_dvd]
    intro hd
    have := Nat.le_of_dvd (by omega) hd
    omega
  have h00 := after_seed hg e s 0
  have key : ∀ k, afterCalls call k (call (e.seed s)).2 = (call (e.seed s)).2 ↔ P.N * T ∣ k := by
    intro k
    obtain ⟨ha, hb⟩ := after_seed hg e s k
    obtain ⟨ha0, hb0⟩ := h00
    have ha0 : (call (e.seed s)).2.mti = ((0 % P.N + 1 : Nat) : Int) := ha0
    have hb0 : ∀ j : Fin P.N, (call (e.seed s)).2.mt j = term hg (e.seed s).mt (P.N + P.N * (0 / P.N) + j.val) := hb0
    rw [Nat.zero_mod] at ha0
    simp only [Nat.zero_div, Nat.mul_zero, Nat.add_zero] at hb0
    constructor
    · intro h
      have hk0 : k % P.N = 0 := by
        have := congrArg MT.mti h
        rw [ha, ha0] at this
        omega
      have hdk := Nat.div_add_mod k P.N
      rw [hk0, Nat.add_zero] at hdk
      rw [hdk] at hb
      have hw : ∀ j, j < P.N → term hg (e.seed s).mt (P.N + k + j) = term hg (e.seed s).mt (P.N + j) := by
        intro j hj
        have := congrArg (fun z : MT P => z.mt ⟨j, hj⟩) h
        rwa [hb, hb0] at this
      have hwin : window r P.N (term hg (e.seed s).mt) (P.N + k) = window r P.N (term hg (e.seed s).mt) P.N := by
        have e0 := hw 0 (by omega)
        rw [Nat.add_zero, Nat.add_zero] at e0
        rw [window, window, e0]
        congr 1
        funext i
        have := hw (i.val + 1) (by omega)
        rwa [show P.N + k + (i.val + 1) = P.N + k + 1 + i.val by omega, show P.N + (i.val + 1) = P.N + 1 + i.val by omega] at this
      have h3 := (hper (P.N + k) P.N).1 (window_ext hF.m_pos hF.m_lt hrec hrec hwin)
      have h4 := Nat.modEq_zero_iff_dvd.1 (Nat.ModEq.add_left_cancel' (c := P.N) (a := k) (b := 0) h3)
      exact Nat.Coprime.mul_dvd_of_dvd_of_dvd hcop.symm (Nat.dvd_of_mod_eq_zero hk0) h4
    · rintro ⟨c, rfl⟩
      have hm : P.N * T * c % P.N = 0 := by rw [Nat.mul_assoc, Nat.mul_mod_right]
      have hd : P.N * (P.N * T * c / P.N) = P.N * T * c := by
        rw [Nat.mul_assoc, Nat.mul_div_cancel_left _ (by omega)]
      rw [hm] at ha
      rw [hd] at hb
      have hmt : (afterCalls call (P.N * T * c) (call (e.seed s)).2).mt = (call (e.seed s)).2.mt := by
        funext j
        rw [hb, hb0]
        have := (hper (P.N + P.N * T * c - 1) (P.N - 1)).2 (by
          rw [show P.N + P.N * T * c - 1 = (P.N - 1) + T * (P.N * c) by
            rw [show P.N * T * c = T * (P.N * c) by ring]; omega]
          rw [Nat.ModEq, Nat.add_mul_mod_self_left]) j.val
        rwa [show j.val + (P.N + P.N * T * c - 1) + 1 = P.N + P.N * T * c + j.val by omega,
          show j.val + (P.N - 1) + 1 = P.N + j.val by omega] at this
      have hmti := ha.trans ha0.symm
      revert hmt hmti
      generalize afterCalls call (P.N * T * c) (call (e.seed s)).2 = x
      generalize (call (e.seed s)).2 = y
      intro hmt hmti
      cases x; cases y
      simp only at hmt hmti
      rw [hmt, hmti]
  have hpos : 0 < P.N * T := Nat.mul_pos (by omega) hp.pos
  refine ⟨hpos, (key _).2 dvd_rfl, fun t h0 ht hc => ?_⟩
  have := Nat.le_of_dvd h0 ((key t).1 hc)
  omega

theorem object_period' (hg : Good P) (hF : Full P.N P.M r L P.A) (hA : P.A.getLsbD (w - 1) = true) (e : MT P) (s : BitVec 64)
    (hrec : TwisterRecurrence P.N P.M r P.A (term hg (e.seed s).mt)) (hl : Live r (e.seed s))
    (hp : (2 ^ L - 1).Prime) (N : Nat) (hPN : P.N = N) (hN : N < 2 ^ L - 1) :
    ExactPeriod call (call (e.seed s)).2 (N * (2 ^ L - 1)) := by
  subst hPN
  exact object_period hg hF hA e s hrec hl hp hN

theorem live_seed (h3 : 3 ≤ P.N) (hw : 2 < 2 ^ w) (e : MT P) (s : BitVec 64) : Live r (e.seed s) := by
  have hmt : ∀ i (hi : i < P.N), (e.seed s).mt ⟨i, hi⟩ = (List.range i).foldl (fun (x : BitVec w) k =>
    P.mult * (x ^^^ (x >>> P.shift)) + BitVec.ofNat w (k + 1)) (s.setWidth w) := fun _ _ => rfl
  have hex : ∀ x : BitVec w, x ≠ 0 → ∃ j, x.getLsbD j = true := by
    intro x hx
    by_contra hc
    push Not at hc
    apply hx
    apply BitVec.eq_of_getLsbD_eq
    intro i _
    rw [Bool.eq_false_iff.2 (hc i)]
    exact BitVec.getLsbD_zero.symm
  by_cases h1 : (e.seed s).mt ⟨1, by omega⟩ = 0
  · have h2 : (e.seed s).mt ⟨2, by omega⟩ ≠ 0 := by
      have e2 : (e.seed s).mt ⟨2, by omega⟩ = P.mult * ((e.seed s).mt ⟨1, by omega⟩ ^^^ ((e.seed s).mt ⟨1, by omega⟩ >>> P.shift))
        + BitVec.ofNat w 2 := rfl
      rw [e2, h1]
      intro hc
      have := congrArg BitVec.toNat hc
      simp at this
      rw [Nat.mod_eq_of_lt hw] at this
      omega
    obtain ⟨j, hj⟩ := hex _ h2
    exact ⟨_, j, hj, Or.inl (by simp)⟩
  · obtain ⟨j, hj⟩ := hex _ h1
    exact ⟨_, j, hj, Or.inl (by simp)⟩

theorem temper32_zero : mt19937.temper 0 = 0 := by decide
theorem temper64_zero : mt19937_64.temper 0 = 0 := by decide
theorem lt_period (N : Nat) (hN : N < 1024) : N < 2 ^ 19937 - 1 := by
  have : 2 ^ 11 ≤ 2 ^ 19937 := Nat.pow_le_pow_right (by omega) (by omega)
  omega

end MT

/-! ### C75 -/

/-- mt19937: the sequence of returned values has the exact period `2^19937 - 1`, from every state
with a position of at least 1 (the initial and all reachable ones) in which some bit other than the 31
lowest bits of the first word is set. -/
theorem C75_mt19937_period (e : MT mt19937) (h1 : 1 ≤ e.mti)
    (hl : ∃ (i : Fin 624) (j : Nat), (e.mt i).getLsbD j = true ∧ (i.val ≠ 0 ∨ 31 ≤ j)) :
    ExactOutputPeriod call e (2 ^ 19937 - 1) :=
  output_period (P := mt19937) (r := 31) good32 full32 temper32_inj (by decide) e (rec32 _) h1 hl

/-- mt19937_64 likewise. -/
theorem C75_mt19937_64_period (e : MT mt19937_64) (h1 : 1 ≤ e.mti)
    (hl : ∃ (i : Fin 312) (j : Nat), (e.mt i).getLsbD j = true ∧ (i.val ≠ 0 ∨ 31 ≤ j)) :
    ExactOutputPeriod call e (2 ^ 19937 - 1) :=
  output_period (P := mt19937_64) (r := 31) good64 full64 temper64_inj (by decide) e (rec64 _) h1 hl

/-- Every seed gives this period. -/
theorem C75_mt19937_seeded (e : MT mt19937) (s : BitVec 64) : ExactOutputPeriod call (e.seed s) (2 ^ 19937 - 1) :=
  C75_mt19937_period _ (by show (1 : Int) ≤ 624; omega) (live_seed (by decide) (by decide) e s)

theorem C75_mt19937_64_seeded (e : MT mt19937_64) (s : BitVec 64) : ExactOutputPeriod call (e.seed s) (2 ^ 19937 - 1) :=
  C75_mt19937_64_period _ (by show (1 : Int) ≤ 312; omega) (live_seed (by decide) (by decide) e s)

/-- mt19937 is equidistributed in 623 dimensions with full 32 bit accuracy: of the `2^19937 - 1` tuples
of 623 successive values, every tuple occurs twice, the zero tuple once. -/
theorem C75_mt19937_equidistributed (e : MT mt19937) (h1 : 1 ≤ e.mti)
    (hl : ∃ (i : Fin 624) (j : Nat), (e.mt i).getLsbD j = true ∧ (i.val ≠ 0 ∨ 31 ≤ j)) (v : Fin 623 → BitVec 32) :
    ((Finset.range (2 ^ 19937 - 1)).filter fun k => ∀ i : Fin 623, nth call e (k + i.val) = some (v i)).card =
      if v = (fun _ => 0) then 1 else 2 :=
  output_count (P := mt19937) (r := 31) good32 full32 C37_mt19937_temper.1 temper32_zero (by decide) e (rec32 _) h1 hl v

/-- mt19937_64 is equidistributed in 311 dimensions with full 64 bit accuracy: every tuple of 311
successive values occurs `2^33` times per period, the zero tuple once less. -/
theorem C75_mt19937_64_equidistributed (e : MT mt19937_64) (h1 : 1 ≤ e.mti)
    (hl : ∃ (i : Fin 312) (j : Nat), (e.mt i).getLsbD j = true ∧ (i.val ≠ 0 ∨ 31 ≤ j)) (v : Fin 311 → BitVec 64) :
    ((Finset.range (2 ^ 19937 - 1)).filter fun k => ∀ i : Fin 311, nth call e (k + i.val) = some (v i)).card =
      if v = (fun _ => 0) then 2 ^ 33 - 1 else 2 ^ 33 :=
  output_count (P := mt19937_64) (r := 31) good64 full64 C37_mt19937_64_temper.1 temper64_zero (by decide) e (rec64 _) h1 hl v

/-- The object itself, with its position, recurs after exactly `624 (2^19937 - 1)` calls (counted from
the first call on: the lower bits of the first seeded word do not influence anything and never come
back). -/
theorem C75_mt19937_object (e : MT mt19937) (s : BitVec 64) :
    ExactPeriod call (call (e.seed s)).2 (624 * (2 ^ 19937 - 1)) :=
  object_period' (P := mt19937) (r := 31) good32 full32 (by decide) e s (rec32 _) (live_seed (by decide) (by decide) e s)
    Mersenne.prime_19937 624 rfl (lt_period _ (by decide))

theorem C75_mt19937_64_object (e : MT mt19937_64) (s : BitVec 64) :
    ExactPeriod call (call (e.seed s)).2 (312 * (2 ^ 19937 - 1)) :=
  object_period' (P := mt19937_64) (r := 31) good64 full64 (by decide) e s (rec64 _) (live_seed (by decide) (by decide) e s)
    Mersenne.prime_19937 312 rfl (lt_period _ (by decide))

/-- The hypotheses are met by a hand-made state with a single bit. -/
example : (1 : Int) ≤ (⟨624, fun i => if i.val = 0 then 0x80000000#32 else 0⟩ : MT mt19937).mti ∧
    ∃ (i : Fin 624) (j : Nat), ((⟨624, fun i => if i.val = 0 then 0x80000000#32 else 0⟩ : MT mt19937).mt i).getLsbD j = true ∧
      (i.val ≠ 0 ∨ 31 ≤ j) :=
  ⟨by decide, ⟨0, by decide⟩, 31, by decide, Or.inr le_rfl⟩

end Trng
