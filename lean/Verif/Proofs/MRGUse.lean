import Verif.Proofs.MRGField
import Verif.Proofs.Schedule

/-! From the linear algebra to the engines. -/
namespace Trng.MRG
open IntMath Matrix PowMod LinRec Spec

variable {n m : Nat}

theorem valid_iff {e : MRG n} : InRange m e ↔ Valid m e :=
  ⟨fun h => ⟨fun i => ⟨(h i).1, (h i).2.1⟩, fun i => ⟨(h i).2.2.1, (h i).2.2.2⟩⟩,
   fun h i => ⟨(h.a i).1, (h.a i).2, (h.r i).1, (h.r i).2⟩⟩

theorem isEngineModulus (K : Kind) : IsEngineModulus K.modulus := by
  cases K <;> simp [Kind.modulus, IsEngineModulus]

theorem order_le (K : Kind) : K.order ≤ 5 := by cases K <;> decide

theorem uses_eq {e : MRG n} {l : List Int} (h : Uses e l) : e.a = params l := by
  funext i
  unfold params
  rw [List.getD_eq_getElem?_getD, h i]; rfl

theorem split_leapfrog [NeZero n] [Fact m.Prime] (hm : IsEngineModulus m) (hn : n ≤ 5) {e : MRG n} (h : Valid m e)
    (s k : BitVec 32) (hk : k < s) (h5 : n = 5 → NoShort m e s.toNat) :
    ∃ e', split m e s k = .ok e' ∧ Valid m e' ∧
      ∀ j, out m e' (j + 1) = out m e (k.toNat + 1 + s.toNat * j) := by
  rw [BitVec.lt_def] at hk
  by_cases hs : 1 < s.toNat
  · exact split_spec hm hn h s k hs hk h5
  · have hs1 : s = 1 := BitVec.eq_of_toNat_eq (by simp; omega)
    have hk0 : k = 0 := BitVec.eq_of_toNat_eq (by subst hs1; simp at hk ⊢; omega)
    subst hs1; subst hk0
    refine ⟨e, ?_, h, fun j => ?_⟩
    · unfold split
      rw [if_neg (by decide), if_neg (by decide)]
    · congr 1
      show j + 1 = 0 + 1 + 1 * j
      omega

theorem leapfrog_of_out [NeZero n] [Fact m.Prime] (hm : IsEngineModulus m) (hn : n ≤ 5) {e e' : MRG n}
    (h : Valid m e) (h' : Valid m e') {s k : Nat} (hout : ∀ j, out m e' (j + 1) = out m e (k + 1 + s * j)) :
    Leapfrog (call m) e e' s k ∧ ∀ g, Leapfrog (callYarn m g) e e' s k := by
  have key : ∀ j, ((step m)^[j + 1] e').r 0 = ((step m)^[j * s + k + 1] e).r 0 := by
    intro j
    refine ((iterate_valid hm hn h' _).r 0).inj ((iterate_valid hm hn h _).r 0) ?_
    have := hout j
    unfold out at this
    rw [this, show k + 1 + s * j = j * s + k + 1 by ring]
  refine ⟨fun j => ?_, fun g j => ?_⟩
  · rw [nth_call, nth_call, key]
  · rw [nth_callYarn, nth_callYarn, key]

theorem noShort_step [NeZero n] [Fact m.Prime] {e e' : MRG n} {s t k : Nat}
    (hout : ∀ j, out m e' (j + 1) = out m e (k + 1 + s * j)) (h : NoShort m e (s * t)) : NoShort m e' t := by
  have hsh : ∀ o i, out m e' (o + 1 + t * i) = out m e (k + s * o + 1 + s * t * i) := by
    intro o i
    rw [show o + 1 + t * i = (o + t * i) + 1 by ring, hout]
    congr 1; ring
  intro o c z h0 h5 hrec
  simp only [hsh] at hrec ⊢
  exact h _ c z h0 h5 hrec

theorem recurrent_of_lastNonZero [NeZero n] [Fact m.Prime] (hm : IsEngineModulus m) (hn : n ≤ 5) {e : MRG n}
    (h : Valid m e) (hl : LastNonZero e) : Recurrent m e :=
  recurrent_of_last hm hn (NeZero.pos n) h (hl _ (by have := NeZero.pos n; show n - 1 + 1 = n; omega))

theorem order_pos_bound {K : Kind} {l : List Int} (hl : l ∈ fullPeriod K ++ halfPeriod K) :
    (∃ c : ZMod K.modulus, orderOf (c • comp K.modulus (params l : Fin K.order → Int)) = K.modulus ^ K.order - 1) ∧
    (K.modulus ^ K.order - 1) / 2 ≤ orderOf (comp K.modulus (params l : Fin K.order → Int)) := by
  rcases List.mem_append.1 hl with h | h
  · obtain ⟨-, h1⟩ := fullPeriod_order K l h
    exact ⟨⟨1, by rw [one_smul]; exact h1⟩, by omega⟩
  · obtain ⟨-, h1, h2⟩ := halfPeriod_order K l h
    exact ⟨⟨-1, h2⟩, h1.ge⟩

theorem builtin_five (K : Kind) (h5 : K.order = 5) {l : List Int} (hl : l ∈ K.paramLists) :
    l ∈ fullPeriod K ++ halfPeriod K := by
  cases K <;> first | (exact absurd h5 (by decide)) | skip
  all_goals
    simp only [Kind.paramLists, fullPeriod, halfPeriod, List.mem_append, List.mem_cons, List.not_mem_nil, or_false] at hl ⊢
    tauto

theorem noShort_builtin {K : Kind} {e : MRG K.order} (h : Valid K.modulus e) (h5 : K.order = 5) {l : List Int}
    (hl : l ∈ K.paramLists) (hu : Uses e l) {s : Nat} (hs0 : 0 < s) (hs : s < 2 ^ 64) : NoShort K.modulus e s := by
  have hm := isEngineModulus K
  obtain ⟨m1, m2⟩ := engineModulus_bounds hm
  obtain ⟨⟨c, hc⟩, h2⟩ := order_pos_bound (builtin_five K h5 hl)
  rw [← uses_eq hu] at hc h2
  refine noShort_of_order hm h5 h hc fun hd => ?_
  have hle := Nat.le_of_dvd (Nat.mul_pos hs0 (by omega)) hd
  have h3 : (2 ^ 30) ^ 5 ≤ K.modulus ^ K.order := by rw [h5]; exact Nat.pow_le_pow_left m1.le 5
  have h4 : s * (K.modulus - 1) ≤ 2 ^ 64 * 2 ^ 31 := Nat.mul_le_mul hs.le (by omega)
  have h5 : (2 ^ 30) ^ 5 = 2 ^ 150 := by norm_num
  omega

theorem splittable_noShort {K : Kind} {e : MRG K.order} (h : Splittable K e) {s : Nat} (hs0 : 0 < s)
    (hs : s < 2 ^ 64) : K.order = 5 → NoShort K.modulus e s := by
  intro h5
  obtain ⟨l, hl, hu⟩ := h.2 h5
  exact noShort_builtin (valid_iff.1 h.1) h5 hl hu hs0 hs

/-! ### the output function of the yarn engines -/

def genFac : Kind → List (Nat × Nat)
  | .k3s => [(2, 1), (1073731289, 1)]
  | .k5s => [(2, 1), (1073730503, 1)]
  | _ => [(2, 1), (3, 2), (7, 1), (11, 1), (31, 1), (151, 1), (331, 1)]

theorem gen_order (K : Kind) : orderOf ((K.gen : Nat) : ZMod K.modulus) = K.modulus - 1 := by
  have hp : ∀ q ∈ genFac K, q.1.Prime := by
    cases K <;> simp only [genFac, List.forall_mem_cons, List.not_mem_nil, false_imp_iff, implies_true, and_true] <;>
      simp only [prime_2, prime_3, prime_7, prime_11, prime_31, prime_151, prime_331, prime_1073731289,
        prime_1073730503, and_self]
  have hprod : prodPow (genFac K) = K.modulus - 1 := by cases K <;> decide
  have hpow : ∀ E, E < 2 ^ 200 → ((K.gen : ZMod K.modulus) ^ E = 1 ↔ powMod K.gen K.modulus E % K.modulus = 1) := by
    intro E hE
    rw [← powMod_cast _ _ _ hE, show (1 : ZMod K.modulus) = ((1 : Nat) : ZMod K.modulus) by simp,
      ZMod.natCast_eq_natCast_iff', show 1 % K.modulus = 1 by cases K <;> decide]
  have hlt : prodPow (genFac K) < 2 ^ 200 := by cases K <;> decide
  rw [← hprod]
  refine orderOf_of_checks _ _ hp (by cases K <;> decide) ((hpow _ hlt).2 (by cases K <;> decide +kernel)) ?_
  intro q hq
  rw [Ne, hpow _ (lt_of_le_of_lt (Nat.div_le_self _ _) hlt)]
  revert q
  cases K <;> decide +kernel

theorem yarnOut_eq (K : Kind) {x : Int} (h0 : 0 ≤ x) (h1 : x < K.modulus) :
    yarnOut K.modulus K.gen x = some (if x = 0 then 0 else ((K.gen ^ x.toNat % K.modulus : Nat) : Int)) := by
  unfold yarnOut
  split
  · rfl
  · obtain ⟨m1, m2⟩ := engineModulus_bounds (isEngineModulus K)
    have : (BitVec.ofInt 32 x).toNat = x.toNat := by
      rw [BitVec.toNat_ofInt]; omega
    rw [powerApply_eq (isEngineModulus K) (by cases K <;> decide) _ (by omega), this]

theorem gen_ne_zero (K : Kind) (x : Nat) : K.gen ^ x % K.modulus ≠ 0 := by
  intro h
  have hd := (Fact.out : K.modulus.Prime).dvd_of_dvd_pow (Nat.dvd_of_mod_eq_zero h)
  exact absurd hd (by cases K <;> decide)

theorem gen_inj (K : Kind) {x y : Nat} (hx : 0 < x) (hy' : y < K.modulus) (hxy : x ≤ y)
    (h : K.gen ^ x % K.modulus = K.gen ^ y % K.modulus) : x = y := by
  have h1 : ((K.gen : Nat) : ZMod K.modulus) ^ x = (K.gen : ZMod K.modulus) ^ y := by
    rw [← Nat.cast_pow, ← Nat.cast_pow, ZMod.natCast_eq_natCast_iff']; exact h
  obtain ⟨d, rfl⟩ := Nat.exists_eq_add_of_le hxy
  have h2 : ((K.gen : Nat) : ZMod K.modulus) ^ x ≠ 0 := by
    rw [← Nat.cast_pow, Ne, ZMod.natCast_eq_zero_iff]
    exact fun hd => gen_ne_zero K x (Nat.mod_eq_zero_of_dvd hd)
  rw [pow_add] at h1
  have h3 := mul_left_cancel₀ h2 ((mul_one _).trans h1)
  have h4 := orderOf_dvd_of_pow_eq_one h3.symm
  rw [gen_order] at h4
  rcases Nat.eq_zero_or_pos d with h0 | h0
  · omega
  · exact absurd (Nat.le_of_dvd h0 h4) (by omega)

theorem yarnOut_inj (K : Kind) {x y : Int} (hx : 0 ≤ x) (hx' : x < K.modulus) (hy : 0 ≤ y) (hy' : y < K.modulus)
    (h : yarnOut K.modulus K.gen x = yarnOut K.modulus K.gen y) : x = y := by
  rw [yarnOut_eq K hx hx', yarnOut_eq K hy hy', Option.some_inj] at h
  split at h <;> split at h
  · omega
  · exact absurd (by exact_mod_cast h.symm) (gen_ne_zero K y.toNat)
  · exact absurd (by exact_mod_cast h) (gen_ne_zero K x.toNat)
  · rcases Int.le_total x y with hl | hl
    · have := gen_inj K (x := x.toNat) (y := y.toNat) (by omega) (by omega) (by omega) (by exact_mod_cast h)
      omega
    · have := gen_inj K (x := y.toNat) (y := x.toNat) (by omega) (by omega) (by omega) (by exact_mod_cast h.symm)
      omega

/-! ### periods -/

theorem castV_ne_zero [Fact m.Prime] {e : MRG n} (h : Valid m e) (hz : NonZero e) : castV m e.r ≠ 0 := by
  obtain ⟨i, hi⟩ := hz
  intro hc
  exact hi (((h.r i).cast_eq_zero).1 (congrFun hc i))

theorem iterate_eq_self_iff {K : Kind} {e : MRG K.order} (h : Valid K.modulus e) (hz : NonZero e) {l : List Int}
    (hl : l ∈ fullPeriod K ++ halfPeriod K) (hu : Uses e l) {t : Nat} (ht : t < 2 ^ 160) :
    (step K.modulus)^[t] e = e ↔ orderOf (comp K.modulus e.a) ∣ t := by
  have hm := isEngineModulus K
  obtain ⟨m1, m2⟩ := engineModulus_bounds hm
  have hn := order_le K
  obtain ⟨⟨c, hc⟩, -⟩ := order_pos_bound hl
  rw [← uses_eq hu] at hc
  have hN : K.modulus ^ K.order - 1 < 2 ^ 160 := by
    have : K.modulus ^ K.order ≤ (2 ^ 31) ^ 5 :=
      (Nat.pow_le_pow_left m2.le _).trans (Nat.pow_le_pow_right (by norm_num) hn)
    have : (2 ^ 31) ^ 5 < 2 ^ 160 := by norm_num
    omega
  rw [orderOf_dvd_iff_pow_eq_one, ← pow_mulVec_eq_iff (NeZero.pos _) (fun i => (h.a i).1) hN hc (castV_ne_zero h hz) ht,
    ← castV_iterate hm hn h]
  exact ⟨fun h1 => by rw [h1], fun h1 => ext_cast (iterate_valid hm hn h t) h (iterate_a e t) h1⟩

/-- `n` successive values determine the state. -/
theorem state_of_out [NeZero n] {e e' : MRG n} (ha : e.a = e'.a) {t t' : Nat}
    (h : ∀ k, ((step m)^[t + k] e).r 0 = ((step m)^[t' + k] e').r 0) :
    (step m)^[t + n] e = (step m)^[t' + n] e' := by
  refine MRG.ext (by rw [iterate_a, iterate_a, ha]) (funext fun i => ?_)
  have h1 : ∀ (e : MRG n) (t : Nat), ((step m)^[t + n] e).r i = ((step m)^[t + (n - i.val)] e).r 0 := by
    intro e t
    have := shift_r (m := m) ((step m)^[t + (n - i.val)] e) i.val 0 (by have := i.isLt; omega)
    rw [← Function.iterate_add_apply] at this
    rw [show t + n = i.val + (t + (n - i.val)) by have := i.isLt; omega]
    simp only [Nat.zero_add] at this
    exact this
  rw [h1, h1, h]

theorem exactPeriod_of_iff {σ α : Type} {call : σ → α × σ} {e : σ} {T : Nat} (hT : 0 < T)
    (h : ∀ t, t ≤ T → (afterCalls call t e = e ↔ T ∣ t)) : ExactPeriod call e T :=
  ⟨hT, (h T (le_refl _)).2 (dvd_refl _), fun t h0 hlt hc =>
    absurd (Nat.le_of_dvd h0 ((h t hlt.le).1 hc)) (by omega)⟩

theorem exactPeriods {K : Kind} {e : MRG K.order} (h : Valid K.modulus e) (hz : NonZero e) {l : List Int}
    (hl : l ∈ fullPeriod K ++ halfPeriod K) (hu : Uses e l) {T : Nat} (hT : orderOf (comp K.modulus e.a) = T)
    (hT1 : T < 2 ^ 156) (f : Int → α) (hf : ∀ x y : Int, 0 ≤ x → x < K.modulus → 0 ≤ y → y < K.modulus → f x = f y → x = y)
    (call' : MRG K.order → α × MRG K.order) (hcall : ∀ e, call' e = (f ((e.step K.modulus).r 0), e.step K.modulus)) :
    ExactPeriod call' e T ∧ ExactOutputPeriod call' e T := by
  have hm := isEngineModulus K
  have hn := order_le K
  have hac : ∀ t (e : MRG K.order), afterCalls call' t e = (step K.modulus)^[t] e := by
    intro t
    induction t with
    | zero => intro e; rfl
    | succ t ih => intro e; rw [afterCalls, ih, Function.iterate_succ_apply, hcall]
  have hnth : ∀ k, nth call' e k = f (((step K.modulus)^[k + 1] e).r 0) := by
    intro k
    rw [nth, hac, Function.iterate_succ_apply', hcall]
  have hiff : ∀ t, t < 2 ^ 160 → ((step K.modulus)^[t] e = e ↔ T ∣ t) := by
    intro t ht
    rw [iterate_eq_self_iff h hz hl hu ht, hT]
  have hTpos : 0 < T := by
    obtain ⟨-, h2⟩ := order_pos_bound hl
    rw [← uses_eq hu, hT] at h2
    obtain ⟨m1, m2⟩ := engineModulus_bounds hm
    have : (2 ^ 30) ^ 1 ≤ K.modulus ^ K.order :=
      (Nat.pow_le_pow_left m1.le 1).trans (Nat.pow_le_pow_right (by omega) (Nat.one_le_iff_ne_zero.2 (NeZero.ne _)))
    omega
  refine ⟨exactPeriod_of_iff hTpos fun t ht => ?_, hTpos, fun k => ?_, fun t h0 hlt => ?_⟩
  · rw [hac]; exact hiff t (by omega)
  · rw [hnth, hnth, show k + T + 1 = (k + 1) + T by ring, Function.iterate_add_apply,
      (hiff T (by omega)).2 (dvd_refl _)]
  · by_contra hc
    push Not at hc
    have h1 : ∀ k, ((step K.modulus)^[(t + 1) + k] e).r 0 = ((step K.modulus)^[1 + k] e).r 0 := by
      intro k
      have := hc k
      rw [hnth, hnth] at this
      have := hf _ _ ((iterate_valid hm hn h _).r 0).1 ((iterate_valid hm hn h _).r 0).2
        ((iterate_valid hm hn h _).r 0).1 ((iterate_valid hm hn h _).r 0).2 this
      rw [show t + 1 + k = k + t + 1 by ring, show 1 + k = k + 1 by ring]
      exact this
    have h2 := state_of_out (m := K.modulus) (e := e) (e' := e) rfl h1
    -- go forward to a multiple of the period
    have h3 : (step K.modulus)^[T * (1 + K.order) + t] e = (step K.modulus)^[T * (1 + K.order)] e := by
      have hle : 1 + K.order ≤ T * (1 + K.order) := Nat.le_mul_of_pos_left _ hTpos
      rw [show T * (1 + K.order) + t = (T * (1 + K.order) - (1 + K.order)) + (t + 1 + K.order) by omega,
        Function.iterate_add_apply, h2, ← Function.iterate_add_apply]
      congr 1; omega
    have hT5 : T * (1 + K.order) ≤ T * 6 := Nat.mul_le_mul_left _ (by omega)
    rw [(hiff (T * (1 + K.order)) (by omega)).2 (dvd_mul_right _ _), Nat.add_comm, Function.iterate_add_apply,
      (hiff (T * (1 + K.order)) (by omega)).2 (dvd_mul_right _ _)] at h3
    exact absurd (Nat.le_of_dvd h0 ((hiff t (by omega)).1 h3)) (by omega)

theorem bound_order {K : Kind} : K.modulus ^ K.order - 1 < 2 ^ 156 ∧ 2 ^ 30 < K.modulus ^ K.order := by
  obtain ⟨m1, m2⟩ := engineModulus_bounds (isEngineModulus K)
  have h1 : K.modulus ^ K.order ≤ (2 ^ 31) ^ 5 :=
    (Nat.pow_le_pow_left m2.le _).trans (Nat.pow_le_pow_right (by norm_num) (order_le K))
  have h2 : (2 ^ 31) ^ 5 < 2 ^ 156 := by norm_num
  have h3 : K.modulus ^ 1 ≤ K.modulus ^ K.order :=
    Nat.pow_le_pow_right (by omega) (Nat.one_le_iff_ne_zero.2 (NeZero.ne _))
  rw [pow_one] at h3
  omega

/-- The states of a full period are all non-zero states. -/
theorem exists_state {K : Kind} {e : MRG K.order} (h : Valid K.modulus e) (hz : NonZero e) {l : List Int}
    (hl : l ∈ fullPeriod K) (hu : Uses e l) (w : Fin K.order → ZMod K.modulus) (hw : w ≠ 0) :
    ∃ t, t < K.modulus ^ K.order - 1 ∧ castV K.modulus ((step K.modulus)^[t] e).r = w := by
  classical
  have hm := isEngineModulus K
  have hn := order_le K
  have hl' : l ∈ fullPeriod K ++ halfPeriod K := List.mem_append_left _ hl
  have hord : orderOf (comp K.modulus e.a) = K.modulus ^ K.order - 1 := by
    rw [uses_eq hu]; exact (fullPeriod_order K l hl).2
  obtain ⟨b1, b2⟩ := bound_order (K := K)
  obtain ⟨T, hT⟩ : ∃ T, T = K.modulus ^ K.order - 1 := ⟨_, rfl⟩
  rw [← hT] at hord b1 ⊢
  have hper : ∀ t, t < 2 ^ 160 → ((step K.modulus)^[t] e = e ↔ T ∣ t) := fun t ht => by
    rw [iterate_eq_self_iff h hz hl' hu ht, hord]
  have hcyc : (step K.modulus)^[T] e = e := (hper T (by omega)).2 (dvd_refl _)
  let f : Fin T → {w : Fin K.order → ZMod K.modulus // w ≠ 0} := fun t =>
    ⟨castV K.modulus ((step K.modulus)^[t.val] e).r, by
      intro h0
      have h1 : castV K.modulus ((step K.modulus)^[T] e).r = 0 := by
        rw [show T = (T - t.val) + t.val by omega, Function.iterate_add_apply,
          castV_iterate hm hn (iterate_valid hm hn h _), h0, mulVec_zero]
      rw [hcyc] at h1
      exact castV_ne_zero h hz h1⟩
  have hinj : Function.Injective f := by
    have key : ∀ t u : Fin T, t.val ≤ u.val → f t = f u → t = u := by
      intro t u htu hfu
      have h1 := congrArg Subtype.val hfu
      have h2 : (step K.modulus)^[t.val] e = (step K.modulus)^[u.val] e :=
        ext_cast (iterate_valid hm hn h _) (iterate_valid hm hn h _) (by rw [iterate_a, iterate_a]) h1
      have h3 : (step K.modulus)^[(T - t.val) + u.val] e = e := by
        rw [Function.iterate_add_apply, ← h2, ← Function.iterate_add_apply,
          show T - t.val + t.val = T by omega, hcyc]
      have h4 := (hper _ (by omega)).1 h3
      rw [show T - t.val + u.val = T + (u.val - t.val) by omega, Nat.dvd_add_right (dvd_refl _)] at h4
      have := Nat.eq_zero_of_dvd_of_lt h4 (by omega)
      exact Fin.ext (by omega)
    intro t u hfu
    rcases Nat.le_total t.val u.val with hc | hc
    · exact key t u hc hfu
    · exact (key u t hc hfu.symm).symm
  have hcard : Fintype.card {w : Fin K.order → ZMod K.modulus // w ≠ 0} = T := by
    rw [Fintype.card_subtype_compl, Fintype.card_fun, ZMod.card, Fintype.card_fin, Fintype.card_unique, hT]
  have hbij : Function.Bijective f :=
    (Fintype.bijective_iff_injective_and_card f).2 ⟨hinj, by rw [hcard, Fintype.card_fin]⟩
  obtain ⟨t, ht⟩ := hbij.2 ⟨w, hw⟩
  exact ⟨t.val, t.isLt, congrArg Subtype.val ht⟩

end Trng.MRG
