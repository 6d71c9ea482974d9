import Verif.Proofs.PeriodLaw
import Verif.Model.PeriodLaw
import Verif.Props.LCG64
import Verif.Props.Distribution
import Verif.Props.XoshiroPeriod
import Verif.Props.Minstd
import Verif.Props.MRG
import Verif.Props.Uniform
import Verif.Props.MTPeriod

/-! The engines return every value equally often over a period. -/
namespace Trng.PeriodLaw
open Spec Trng.Uniform Classical

section
variable {σ : Type}

theorem gen64_sound (call : σ → BitVec 64 × σ) : (gen64 call).Sound :=
  ⟨by show 0 < 2 ^ 64 - 1; norm_num, by show 2 ^ 64 - 1 - 0 < 2 ^ 64; norm_num, fun s => ⟨Nat.zero_le _, by
    have := (call s).1.isLt
    show (call s).1.toNat ≤ 2 ^ 64 - 1
    omega⟩⟩

theorem gen64_after (call : σ → BitVec 64 × σ) (k : ℕ) : ∀ e, afterCalls (gen64 call).call k e = afterCalls call k e := by
  induction k with
  | zero => exact fun _ => rfl
  | succ k ih => exact fun e => ih _

theorem gen64_nth (call : σ → BitVec 64 × σ) (e : σ) (k : ℕ) : nth (gen64 call).call e k = (nth call e k).toNat := by
  rw [nth, gen64_after]; rfl

theorem gen64_equi {call : σ → BitVec 64 × σ} {e : σ} {T c : ℕ} (hT : 0 < T) (hc : c * 2 ^ 64 ≤ T + 1)
    (h : ∀ v, ((Finset.range T).filter fun k => nth call e k = v).card ≤ c) : Equidistributed (gen64 call) e T := by
  have e64 : (gen64 call).max - (gen64 call).min + 1 = 2 ^ 64 := by
    show 18446744073709551616 - 1 - 0 + 1 = 18446744073709551616
    norm_num
  refine ⟨hT, c, by rw [e64]; exact hc, fun v => le_trans (Finset.card_le_card fun k hk => ?_) (h (BitVec.ofNat 64 v))⟩
  rw [Finset.mem_filter] at hk ⊢
  rw [gen64_nth] at hk
  exact ⟨hk.1, by rw [← hk.2, BitVec.ofNat_toNat, BitVec.setWidth_eq]⟩

theorem once_card {α : Type} [DecidableEq α] {f : ℕ → α} {T : ℕ} {v : α} (h : ∃! k, k < T ∧ f k = v) : ((Finset.range T).filter fun k => f k = v).card ≤ 1 := by
  obtain ⟨k, -, hk⟩ := h
  rw [Finset.card_le_one]
  intro i hi j hj
  rw [Finset.mem_filter, Finset.mem_range] at hi hj
  rw [hk i hi, hk j hj]

variable {α β : Type} {call : α → β × α} {val : β → ℕ} {P : α → Prop} {h : ∀ e, P e → P (call e).2} {lo hi : ℕ}

theorem sub_after (k : ℕ) : ∀ e, (afterCalls (subGen call val P h lo hi).call k e).1 = afterCalls call k e.1 := by
  induction k with
  | zero => exact fun _ => rfl
  | succ k ih => exact fun e => ih _

theorem sub_nth (e : {e // P e}) (k : ℕ) : nth (subGen call val P h lo hi).call e k = val (nth call e.1 k) := by
  rw [nth, nth, ← sub_after (val := val) (h := h) (lo := lo) (hi := hi)]; rfl

end

open Xoshiro in
theorem xoshiro_count' (e : Xoshiro) {T N : ℕ} (hN : ∀ x : BitVec 64, x.toNat < N)
    (hinj : ∀ i j, i < T → j < T → afterCalls call (i + 1) e = afterCalls call (j + 1) e → i = j) (v : BitVec 64) :
    ((Finset.range T).filter fun k => nth call e k = v).card ≤ N * (N * N) := by
  have hcard : ((Finset.range N) ×ˢ (Finset.range N) ×ˢ (Finset.range N)).card = N * (N * N) := by
    rw [Finset.card_product, Finset.card_product, Finset.card_range]
  have hout : ∀ k, nth call e k = (afterCalls call (k + 1) e).r0 + (afterCalls call (k + 1) e).r3 := by
    intro k
    have : afterCalls call (k + 1) e = (call (afterCalls call k e)).2 := by
      have g : ∀ k e, afterCalls call (k + 1) e = (call (afterCalls call k e)).2 := by
        intro k
        induction k with
        | zero => exact fun _ => rfl
        | succ k ih => exact fun e => ih _
      exact g k e
    rw [this]; rfl
  rw [← hcard]
  refine Finset.card_le_card_of_injOn (fun k => ((afterCalls call (k + 1) e).r0.toNat, (afterCalls call (k + 1) e).r1.toNat, (afterCalls call (k + 1) e).r2.toNat))
    (fun k _ => ?_) (fun i hi j hj hij => ?_)
  · simp only [Finset.coe_product, Finset.coe_range, Set.mem_prod, Set.mem_Iio]
    exact ⟨hN _, hN _, hN _⟩
  · simp only [Finset.coe_filter, Finset.mem_range, Set.mem_ofPred_eq] at hi hj
    simp only [Prod.mk.injEq] at hij
    obtain ⟨h0, h1, h2⟩ := hij
    have g0 := BitVec.eq_of_toNat_eq h0
    have g1 := BitVec.eq_of_toNat_eq h1
    have g2 := BitVec.eq_of_toNat_eq h2
    have g3 : (afterCalls call (i + 1) e).r3 = (afterCalls call (j + 1) e).r3 := by
      have := hi.2.trans hj.2.symm
      rw [hout, hout, g0] at this
      exact add_left_cancel this
    refine hinj i j hi.1 hj.1 ?_
    cases h : afterCalls call (i + 1) e
    cases h' : afterCalls call (j + 1) e
    rw [h, h'] at g0 g1 g2 g3
    simp only at g0 g1 g2 g3
    rw [g0, g1, g2, g3]

open Xoshiro in
theorem xoshiro_inj (e : Xoshiro) (he : e ≠ ⟨0, 0, 0, 0⟩) (i j : ℕ) (hi : i < 2 ^ 256 - 1) (hj : j < 2 ^ 256 - 1)
    (hs : afterCalls call (i + 1) e = afterCalls call (j + 1) e) : i = j := by
  rw [afterCalls_eq, afterCalls_eq, iterate_eq_iff e he] at hs
  have := Nat.ModEq.add_right_cancel' 1 hs
  rwa [Nat.ModEq, Nat.mod_eq_of_lt hi, Nat.mod_eq_of_lt hj] at this

/-! ### Engines with smaller ranges -/

theorem minstd_closed (e : Minstd) (h : e.Valid) : (Minstd.call e).2.Valid := Minstd.valid_iterate e h 1

open MRG in
theorem mrg_closed (K : Kind) (e : MRG K.order) (h : InRange K.modulus e) : InRange K.modulus (call K.modulus e).2 := (C26_mrg_range K e h 1).2.2.1

open MRG in
theorem yarn_closed (K : Kind) (e : MRG K.order) (h : InRange K.modulus e) : InRange K.modulus (callYarn K.modulus K.gen e).2 :=
  (C26_mrg_range K e h 1).2.2.1

/-- minstd as uniformxx.hpp sees it (minstd.hpp:55-60), in the states between 1 and 2147483646. -/
def minstdGen : Gen {e : Minstd // e.Valid} :=
  subGen Minstd.call BitVec.toNat Minstd.Valid minstd_closed 1 2147483646

theorem minstd_sound : minstdGen.Sound :=
  ⟨by show 1 < 2147483646; norm_num, by show 2147483646 - 1 < 2 ^ 64; norm_num, fun s => by
    have := Minstd.valid_iterate s.1 s.2 1
    have h1 := this.1
    have h2 := this.2
    have hp : Minstd.p = 2147483647 := rfl
    show 1 ≤ (Minstd.step s.1).r.toNat ∧ (Minstd.step s.1).r.toNat ≤ 2147483646
    rw [hp] at h2
    exact ⟨h1, Nat.le_of_lt_succ h2⟩⟩

theorem minstd_equi (e : {e : Minstd // e.Valid}) : Equidistributed minstdGen e (2 ^ 31 - 2) := by
  refine ⟨by norm_num, 1, ?_, fun v => ?_⟩
  · have : minstdGen.max - minstdGen.min + 1 = 2147483646 := by show 2147483646 - 1 + 1 = 2147483646; norm_num
    rw [this]; norm_num
  · by_cases hv : 1 ≤ v ∧ v ≤ 2147483646
    · have hv' : (BitVec.ofNat 32 v).toNat = v := by rw [BitVec.toNat_ofNat, Nat.mod_eq_of_lt (by omega)]
      refine le_trans (Finset.card_le_card fun k hk => ?_) (once_card (C92_minstd_once e.1 e.2 (BitVec.ofNat 32 v) ?_ ?_))
      · rw [Finset.mem_filter] at hk ⊢
        refine ⟨hk.1, ?_⟩
        rw [← hk.2, minstdGen, sub_nth, BitVec.ofNat_toNat, BitVec.setWidth_eq]
      · rw [BitVec.le_def, hv']; exact hv.1
      · rw [BitVec.le_def, hv']; exact hv.2
    · rw [Finset.card_eq_zero.2]
      · exact Nat.zero_le _
      · refine Finset.filter_eq_empty_iff.2 fun k _ hc => hv ?_
        rw [← hc]
        exact minstd_sound.range _

open MRG in
/-- The mrg engines as uniformxx.hpp sees them (mrg2.hpp, mrg3.hpp:60-67, ...), with coefficients and state reduced. -/
def mrgGen (K : Kind) : Gen {e : MRG K.order // InRange K.modulus e} :=
  subGen (call K.modulus) Int.toNat _ (mrg_closed K) 0 (K.modulus - 1)

open MRG in
/-- The yarn engines as uniformxx.hpp sees them (yarn2.hpp, yarn3.hpp, ..., yarn5s.hpp:61-69); that the result is not undefined is C30_yarn_range. -/
def yarnGen (K : Kind) : Gen {e : MRG K.order // InRange K.modulus e} :=
  subGen (callYarn K.modulus K.gen) (fun x => (x.getD 0).toNat) _ (yarn_closed K) 0 (K.modulus - 1)

open MRG in
theorem modulus_facts (K : Kind) : 1 < K.modulus - 1 ∧ K.modulus - 1 < 2 ^ 64 ∧ (0, K.modulus - 1) ∈ libraryRanges ∧ 1 ≤ K.order := by
  cases K <;> decide

open MRG in
theorem mrg_sound (K : Kind) : (mrgGen K).Sound := by
  obtain ⟨h1, h2, -⟩ := modulus_facts K
  refine ⟨by show 0 < K.modulus - 1; omega, by show K.modulus - 1 - 0 < 2 ^ 64; omega, fun s => ⟨Nat.zero_le _, ?_⟩⟩
  have := C26_mrg_range K s.1 s.2 0
  have a := this.1
  have b := this.2.1
  show (nth (call K.modulus) s.1 0).toNat ≤ K.modulus - 1
  omega

open MRG in
theorem yarn_sound (K : Kind) : (yarnGen K).Sound := by
  obtain ⟨h1, h2, -⟩ := modulus_facts K
  refine ⟨by show 0 < K.modulus - 1; omega, by show K.modulus - 1 - 0 < 2 ^ 64; omega, fun s => ⟨Nat.zero_le _, ?_⟩⟩
  obtain ⟨y, e, a, b⟩ := C30_yarn_range K s.1 s.2 0
  show ((nth (callYarn K.modulus K.gen) s.1 0).getD 0).toNat ≤ K.modulus - 1
  rw [e]
  show y.toNat ≤ _
  omega

open MRG in
theorem mrg_card (K : Kind) {G : Gen {e : MRG K.order // InRange K.modulus e}} (h0 : G.min = 0) (h1 : G.max = K.modulus - 1) (hG : G.Sound)
    {e : {e : MRG K.order // InRange K.modulus e}}
    (h : ∀ v : ℕ, v < K.modulus → ((Finset.range (K.modulus ^ K.order - 1)).filter fun k => nth G.call e k = v).card ≤ K.modulus ^ (K.order - 1)) :
    Equidistributed G e (K.modulus ^ K.order - 1) := by
  obtain ⟨m1, -, -, o1⟩ := modulus_facts K
  have hpow : K.modulus ^ (K.order - 1) * K.modulus = K.modulus ^ K.order := by rw [← pow_succ]; congr 1; omega
  have hge : K.modulus ^ 1 ≤ K.modulus ^ K.order := Nat.pow_le_pow_right (by omega) o1
  rw [pow_one] at hge
  refine ⟨by omega, K.modulus ^ (K.order - 1), ?_, fun v => ?_⟩
  · rw [h0, h1, show K.modulus - 1 - 0 + 1 = K.modulus by omega, hpow]; omega
  · by_cases hv : v < K.modulus
    · exact h v hv
    · rw [Finset.card_eq_zero.2]
      · exact Nat.zero_le _
      · refine Finset.filter_eq_empty_iff.2 fun k _ hc => hv ?_
        have := (hG.range (afterCalls G.call k e)).2
        rw [h1] at this
        change nth G.call e k ≤ _ at this
        rw [hc] at this
        omega

open MRG in
theorem mrg_equi (K : Kind) {l : List Int} (hl : l ∈ fullPeriod K) (e : {e : MRG K.order // InRange K.modulus e}) (hu : Uses e.1 l) (hz : NonZero e.1) :
    Equidistributed (mrgGen K) e (K.modulus ^ K.order - 1) := by
  refine mrg_card K rfl rfl (mrg_sound K) fun v hv => ?_
  have hv' : (0 : Int) ≤ v ∧ (v : Int) < K.modulus := ⟨by omega, by omega⟩
  have := C92_mrg_uniform K l hl e.1 hu e.2 hz 1 (modulus_facts K).2.2.2 (fun _ => v) (fun _ => hv')
  refine le_trans (Finset.card_le_card fun k hk => ?_) (this.le.trans (Nat.sub_le _ _))
  rw [Finset.mem_filter] at hk ⊢
  refine ⟨hk.1, fun i => ?_⟩
  have hi : i.val = 0 := by omega
  rw [hi, Nat.add_zero]
  have h2 := hk.2
  rw [mrgGen, sub_nth] at h2
  have := (C26_mrg_range K e.1 e.2 k).1
  show nth (call K.modulus) e.1 k = (v : Int)
  omega

open MRG in
theorem yarn_equi (K : Kind) {l : List Int} (hl : l ∈ fullPeriod K) (e : {e : MRG K.order // InRange K.modulus e}) (hu : Uses e.1 l) (hz : NonZero e.1) :
    Equidistributed (yarnGen K) e (K.modulus ^ K.order - 1) := by
  refine mrg_card K rfl rfl (yarn_sound K) fun v hv => ?_
  have hv' : (0 : Int) ≤ v ∧ (v : Int) < K.modulus := ⟨by omega, by omega⟩
  have := C92_yarn_uniform K l hl e.1 hu e.2 hz 1 (modulus_facts K).2.2.2 (fun _ => v) (fun _ => hv')
  refine le_trans (Finset.card_le_card fun k hk => ?_) (this.le.trans (Nat.sub_le _ _))
  rw [Finset.mem_filter] at hk ⊢
  refine ⟨hk.1, fun i => ?_⟩
  have hi : i.val = 0 := by omega
  rw [hi, Nat.add_zero]
  have h2 := hk.2
  rw [yarnGen, sub_nth] at h2
  obtain ⟨y, ey, y0, y1⟩ := C30_yarn_range K e.1 e.2 k
  rw [ey] at h2 ⊢
  change y.toNat = v at h2
  show some y = some (v : Int)
  congr 1
  omega

/-- How often a value occurs, from how often tuples occur. -/
theorem count_one {B : Type} [Fintype B] [DecidableEq B] {f : ℕ → B} {T n c : ℕ}
    (h : ∀ v : Fin (n + 1) → B, ((Finset.range T).filter fun k => ∀ i : Fin (n + 1), f (k + i.val) = v i).card ≤ c) (b : B) :
    ((Finset.range T).filter fun k => f k = b).card ≤ c * Fintype.card B ^ n := by
  have := Finset.card_le_mul_card_image_of_maps_to (s := (Finset.range T).filter fun k => f k = b) (t := (Finset.univ : Finset (Fin n → B)))
    (f := fun k i => f (k + 1 + i.val)) (fun _ _ => Finset.mem_univ _) c (fun g _ => ?_)
  · rwa [Finset.card_univ, Fintype.card_fun, Fintype.card_fin] at this
  · refine le_trans (Finset.card_le_card fun k hk => ?_) (h (Fin.cons b g))
    rw [Finset.mem_filter, Finset.mem_filter] at hk
    rw [Finset.mem_filter]
    refine ⟨hk.1.1, fun i => ?_⟩
    refine Fin.cases ?_ (fun j => ?_) i
    · exact hk.1.2
    · have := congrFun hk.2 j
      simp only [Fin.val_succ, Fin.cons_succ]
      rw [← this]; congr 1; omega

/-! ### Mersenne Twisters -/

open MT in
theorem mt_closed {w : ℕ} (P : Params w) (e : MT P) (h : 0 ≤ e.mti) : 0 ≤ (call e).2.mti := by
  unfold call
  simp only
  split_ifs with hN
  · cases refill e.mt with
    | none => exact h
    | some m =>
      simp only
      cases read m 0 with
      | none => exact le_rfl
      | some x => show (0 : Int) ≤ 0 + 1; omega
  · cases read e.mt e.mti with
    | none => exact h
    | some x => show 0 ≤ e.mti + 1; omega

open MT in
/-- The Mersenne Twisters as uniformxx.hpp sees them (mt19937.hpp:67-72, mt19937_64.hpp:70-75), with a position that is not negative; that the
result is not undefined is C36_mt19937. -/
def mtGen {w : ℕ} (P : Params w) : Gen {e : MT P // 0 ≤ e.mti} :=
  subGen call (fun x => (x.getD 0).toNat) (fun e => 0 ≤ e.mti) (mt_closed P) 0 (2 ^ w - 1)

theorem mt_sound {w : ℕ} (hw : 1 ≤ w) (hw' : w ≤ 64) (P : MT.Params w) : (mtGen P).Sound := by
  have h2 : 2 ^ 1 ≤ 2 ^ w := Nat.pow_le_pow_right (by norm_num) hw
  have h3 : 2 ^ w ≤ 2 ^ 64 := Nat.pow_le_pow_right (by norm_num) hw'
  refine ⟨by show 0 < 2 ^ w - 1; omega, by show 2 ^ w - 1 - 0 < 2 ^ 64; omega, fun s => ⟨Nat.zero_le _, ?_⟩⟩
  have := ((MT.call s.1).1.getD 0).isLt
  show ((MT.call s.1).1.getD 0).toNat ≤ 2 ^ w - 1
  omega

open MT in
theorem mt_equi {w n c : ℕ} {P : Params w} {T : ℕ} (e : {e : MT P // 0 ≤ e.mti}) {x : ℕ → BitVec w} (hx : ∀ k, nth call e.1 k = some (x k)) (hT : 0 < T)
    (h : ∀ v : Fin (n + 1) → BitVec w, ((Finset.range T).filter fun k => ∀ i : Fin (n + 1), nth call e.1 (k + i.val) = some (v i)).card ≤ c)
    (hc : c * (2 ^ w) ^ n * 2 ^ w ≤ T + 1) : Equidistributed (mtGen P) e T := by
  let E : BitVec w ≃ Fin (2 ^ w) := ⟨BitVec.toFin, BitVec.ofFin, fun _ => rfl, fun _ => rfl⟩
  let _ : Fintype (BitVec w) := Fintype.ofEquiv _ E.symm
  have hcard : Fintype.card (BitVec w) = 2 ^ w := by rw [Fintype.card_congr E, Fintype.card_fin]
  simp only [hx, Option.some.injEq] at h
  have h1 := count_one h
  rw [hcard] at h1
  have hw0 : 0 < 2 ^ w := by positivity
  refine ⟨hT, c * (2 ^ w) ^ n, ?_, fun v => ?_⟩
  · show c * (2 ^ w) ^ n * (2 ^ w - 1 - 0 + 1) ≤ T + 1
    rwa [show 2 ^ w - 1 - 0 + 1 = 2 ^ w by omega]
  · refine le_trans (Finset.card_le_card fun k hk => ?_) (h1 (BitVec.ofNat w v))
    rw [Finset.mem_filter] at hk ⊢
    refine ⟨hk.1, ?_⟩
    have h2 := hk.2
    rw [mtGen, sub_nth, hx] at h2
    change (x k).toNat = v at h2
    rw [← h2, BitVec.ofNat_toNat, BitVec.setWidth_eq]

theorem pow_arith {w n a b T : ℕ} (h : a + (w * n + w) = b) (hT : T + 1 = 2 ^ b) : 2 ^ a * (2 ^ w) ^ n * 2 ^ w ≤ T + 1 := by
  rw [hT, ← pow_mul, ← pow_add, ← pow_add, ← h, Nat.add_assoc]

open MT in
theorem mt32_equi (e : {e : MT mt19937 // 0 ≤ e.mti}) (h1 : 1 ≤ e.1.mti)
    (hl : ∃ (i : Fin 624) (j : Nat), (e.1.mt i).getLsbD j = true ∧ (i.val ≠ 0 ∨ 31 ≤ j)) : Equidistributed (mtGen mt19937) e (2 ^ 19937 - 1) := by
  obtain ⟨X, -, -, hX⟩ := C36_mt19937 e.1 e.2
  have hp : 0 < 2 ^ 19937 := by positivity
  have hp2 : (2 : ℕ) ^ 1 < 2 ^ 19937 := pow_lt_pow_right₀ one_lt_two (by decide)
  generalize hN : (2 : ℕ) ^ 19937 = N at *
  have h2 := C75_mt19937_equidistributed e.1 h1 hl
  rw [hN] at h2
  refine mt_equi (n := 622) (c := 2 ^ 1) e hX (by omega) (fun v => ?_) (pow_arith (b := 19937) (by norm_num) (by rw [hN]; omega))
  rw [h2 v]
  split_ifs <;> norm_num

open MT in
theorem mt64_equi (e : {e : MT mt19937_64 // 0 ≤ e.mti}) (h1 : 1 ≤ e.1.mti)
    (hl : ∃ (i : Fin 312) (j : Nat), (e.1.mt i).getLsbD j = true ∧ (i.val ≠ 0 ∨ 31 ≤ j)) : Equidistributed (mtGen mt19937_64) e (2 ^ 19937 - 1) := by
  obtain ⟨X, -, -, hX⟩ := C36_mt19937_64 e.1 e.2
  have hp : 0 < 2 ^ 19937 := by positivity
  have hp2 : (2 : ℕ) ^ 1 < 2 ^ 19937 := pow_lt_pow_right₀ one_lt_two (by decide)
  generalize hN : (2 : ℕ) ^ 19937 = N at *
  have h2 := C75_mt19937_64_equidistributed e.1 h1 hl
  rw [hN] at h2
  refine mt_equi (n := 310) (c := 2 ^ 33) e hX (by omega) (fun v => ?_) (pow_arith (b := 19937) (by norm_num) (by rw [hN]; omega))
  rw [h2 v]
  split_ifs <;> norm_num

end Trng.PeriodLaw
