import Verif.Proofs.MRGBack
import Mathlib.LinearAlgebra.Matrix.Charpoly.Coeff
import Mathlib.LinearAlgebra.Matrix.NonsingularInverse
import Mathlib.GroupTheory.OrderOfElement

/-! Helper lemmas: `split` yields the leapfrog subsequence. -/
namespace Trng.MRG
open IntMath Matrix LinRec

variable {n m : Nat}

/-- The sequence of the engine: entry `i` is the newest value after `i` calls. -/
def out [NeZero n] (m : Nat) (e : MRG n) (i : Nat) : ZMod m := ((((step m)^[i] e).r 0 : Int) : ZMod m)

theorem out_add [NeZero n] (e : MRG n) (i j : Nat) : out m ((step m)^[i] e) j = out m e (j + i) := by
  unfold out; rw [Function.iterate_add_apply]

theorem out_eq [NeZero n] (hm : IsEngineModulus m) (hn : n ≤ 5) {e : MRG n} (h : Valid m e) (i : Nat) :
    out m e i = (comp m e.a ^ i *ᵥ castV m e.r) 0 := by
  rw [← castV_iterate hm hn h]; rfl

/-- A power sequence of a matrix satisfies a recurrence whose order is the size of the matrix. -/
theorem exists_rec [Fact m.Prime] (C : Matrix (Fin n) (Fin n) (ZMod m)) (v : Fin n → ZMod m) (p : Fin n)
    (o s : Nat) : ∃ d, Rec (fun i => (C ^ (o + s * i) *ᵥ v) p) n d := by
  have hch := aeval_self_charpoly (C ^ s)
  have hdeg : (C ^ s).charpoly.natDegree = n := by
    rw [charpoly_natDegree_eq_dim]; simp
  have hmon := charpoly_monic (C ^ s)
  rw [Polynomial.aeval_eq_sum_range, hdeg, Finset.sum_range_succ] at hch
  have hlead : (C ^ s).charpoly.coeff n = 1 := by
    have := hmon.coeff_natDegree
    rwa [hdeg] at this
  rw [hlead, one_smul] at hch
  have hpow : (C ^ s) ^ n = -∑ c ∈ Finset.range n, (C ^ s).charpoly.coeff c • (C ^ s) ^ c := by
    rw [eq_neg_iff_add_eq_zero, add_comm]; exact hch
  refine ⟨fun c => -(C ^ s).charpoly.coeff (n - 1 - c), fun i => ?_⟩
  have e1 : C ^ (o + s * (i + n)) = C ^ (o + s * i) * (C ^ s) ^ n := by
    rw [← pow_mul, ← pow_add]; congr 1; ring
  have e2 : C ^ (o + s * (i + n)) = -∑ c ∈ Finset.range n, (C ^ s).charpoly.coeff c • C ^ (o + s * (i + c)) := by
    rw [e1, hpow, mul_neg, Finset.mul_sum]
    congr 1
    refine Finset.sum_congr rfl fun c _ => ?_
    rw [mul_smul_comm, ← pow_mul, ← pow_add]
    congr 2; ring
  dsimp only
  rw [e2, neg_mulVec, sum_mulVec, ← Finset.sum_range_reflect, Pi.neg_apply, Finset.sum_apply,
    ← Finset.sum_neg_distrib]
  refine Finset.sum_congr rfl fun c hc => ?_
  rw [Finset.mem_range] at hc
  rw [smul_mulVec, Pi.smul_apply, smul_eq_mul, neg_mul]
  rw [show i + (n - 1 - c) = i + n - 1 - c by omega]

theorem out_rec [NeZero n] [Fact m.Prime] (hm : IsEngineModulus m) (hn : n ≤ 5) {e : MRG n} (h : Valid m e)
    (o s : Nat) : ∃ d, Rec (fun i => out m e (o + s * i)) n d := by
  simp only [out_eq hm hn h]
  exact exists_rec _ _ _ _ _

theorem comp_injective [Fact m.Prime] {a : Fin n → Int} (hn : 0 < n) (ha : ∀ i, InR m (a i))
    (hlast : a ⟨n - 1, by omega⟩ ≠ 0) : Function.Injective (comp m a).mulVec := by
  have key : ∀ v : Fin n → ZMod m, comp m a *ᵥ v = 0 → v = 0 := by
    intro v hv
    have h1 : ∀ i : Fin n, ∀ hi : i.val + 1 < n, v i = 0 := by
      intro i hi
      have := congrFun hv ⟨i.val + 1, hi⟩
      simp only [mulVec, dotProduct, comp, companion, Pi.zero_apply] at this
      rw [Finset.sum_eq_single i] at this
      · rw [if_neg (by simp), if_pos rfl, Int.cast_one, one_mul] at this
        exact this
      · intro b _ hb
        rw [if_neg (by simp), if_neg (fun hc => hb (Fin.ext (by simpa using hc))), Int.cast_zero, zero_mul]
      · intro hc; exact absurd (Finset.mem_univ _) hc
    have h2 := congrFun hv ⟨0, hn⟩
    simp only [mulVec, dotProduct, comp, companion, Pi.zero_apply, if_true] at h2
    rw [Finset.sum_eq_single (⟨n - 1, by omega⟩ : Fin n)] at h2
    · have h3 : v ⟨n - 1, by omega⟩ = 0 := by
        rcases mul_eq_zero.1 h2 with h0 | h0
        · exact absurd (((ha _).cast_eq_zero).1 h0) hlast
        · exact h0
      funext i
      by_cases hi : i.val + 1 < n
      · exact h1 i hi
      · have : i = ⟨n - 1, by omega⟩ := Fin.ext (by show i.val = n - 1; omega)
        rw [this]; exact h3
    · intro b _ hb
      rw [h1 b (by
        have := b.isLt
        rcases Nat.lt_or_ge (b.val + 1) n with h | h
        · exact h
        · exact absurd (Fin.ext (by show b.val = n - 1; omega)) hb), mul_zero]
    · intro hc; exact absurd (Finset.mem_univ _) hc
  intro v w hvw
  have := key (v - w) (by rw [mulVec_sub]; exact sub_eq_zero.2 hvw)
  exact sub_eq_zero.1 this

theorem comp_pow_eq_one [Fact m.Prime] {a : Fin n → Int} (hn : 0 < n) (ha : ∀ i, InR m (a i))
    (hlast : a ⟨n - 1, by omega⟩ ≠ 0) : ∃ N, 0 < N ∧ comp m a ^ N = 1 := by
  have hiff := mulVec_injective_iff_isUnit (K := ZMod m) (A := comp m a)
  have hinj : Function.Injective (comp m a).mulVec := comp_injective hn ha hlast
  obtain ⟨u, hu⟩ := hiff.1 hinj
  have hfin : Finite (Matrix (Fin n) (Fin n) (ZMod m)) := inferInstanceAs (Finite (Fin n → Fin n → ZMod m))
  obtain ⟨N, hN, h1⟩ := (isOfFinOrder_of_finite u).exists_pow_eq_one
  refine ⟨N, hN, ?_⟩
  rw [← hu, ← Units.val_pow_eq_pow_val, h1, Units.val_one]

/-- The state lies on a cycle. -/
def Recurrent (m : Nat) (e : MRG n) : Prop := ∃ N, 0 < N ∧ (step m)^[N] e = e

theorem recurrent_of_last [Fact m.Prime] (hm : IsEngineModulus m) (hn : n ≤ 5) (hn0 : 0 < n) {e : MRG n}
    (h : Valid m e) (hlast : e.a ⟨n - 1, by omega⟩ ≠ 0) : Recurrent m e := by
  obtain ⟨N, hN, h1⟩ := comp_pow_eq_one hn0 h.a hlast
  refine ⟨N, hN, ext_cast (iterate_valid hm hn h N) h (iterate_a e N) ?_⟩
  rw [castV_iterate hm hn h, h1, one_mulVec]

/-- The values that are returned form a periodic sequence. -/
theorem out_periodic [NeZero n] [Fact m.Prime] (hm : IsEngineModulus m) (hn : n ≤ 5) {e : MRG n} (h : Valid m e) :
    ∃ N, 0 < N ∧ ∀ i, out m e (i + 1 + N) = out m e (i + 1) := by
  obtain ⟨K, hK⟩ := exists_lastCoeff e.a
  rcases Nat.eq_zero_or_pos K with rfl | hp
  · have h0 : ∀ i, out m e (i + 1) = 0 := by
      intro i
      unfold out
      rw [Function.iterate_succ_apply', step_r hm hn (iterate_valid hm hn h i), if_pos (show (0 : Fin n).val = 0 from rfl), ZMod.intCast_mod]
      push_cast
      refine Finset.sum_eq_zero fun c _ => ?_
      rw [iterate_a, hK.zero c (Nat.zero_le _), Int.cast_zero, zero_mul]
    exact ⟨1, one_pos, fun i => by rw [h0, h0]⟩
  · obtain ⟨d, rfl⟩ : ∃ d, n = K + d := ⟨n - K, by have := hK.le; omega⟩
    have : NeZero K := ⟨by omega⟩
    let e2 : MRG K := ⟨fun i => e.a (Fin.castAdd d i), fun i => e.r (Fin.castAdd d i)⟩
    have h2 : Valid m e2 := ⟨fun i => h.a _, fun i => h.r _⟩
    have hsame : ∀ t (i : Fin K), ((step m)^[t] e).r (Fin.castAdd d i) = ((step m)^[t] e2).r i := by
      intro t
      induction t with
      | zero => intro i; rfl
      | succ t ih =>
        intro i
        rw [Function.iterate_succ_apply', Function.iterate_succ_apply', step_r hm hn (iterate_valid hm hn h t),
          step_r hm (by omega) (iterate_valid hm (by omega) h2 t)]
        by_cases hi : i.val = 0
        · rw [if_pos (show (Fin.castAdd d i).val = 0 from hi), if_pos hi, Fin.sum_univ_add]
          congr 1
          rw [iterate_a, iterate_a]
          have z : ∑ c : Fin d, e.a (Fin.natAdd K c) * ((step m)^[t] e).r (Fin.natAdd K c) = 0 :=
            Finset.sum_eq_zero fun c _ => by rw [hK.zero _ (by simp), zero_mul]
          rw [z, add_zero]
          exact Finset.sum_congr rfl fun c _ => by rw [ih c]
        · rw [if_neg (show ¬ (Fin.castAdd d i).val = 0 from hi), if_neg hi]
          exact ih ⟨i.val - 1, by omega⟩
    obtain ⟨N, hN, hc⟩ := recurrent_of_last hm (by omega) hp h2
      (hK.last _ (by show K - 1 + 1 = K; omega))
    have ho : ∀ i, out m e i = out m e2 i := fun i => by
      unfold out
      have := hsame i 0
      exact congrArg (fun x : Int => (x : ZMod m)) this
    refine ⟨N, hN, fun i => ?_⟩
    rw [ho, ho, ← out_add, hc]

theorem splitAt_eq [Fact m.Prime] (hm : IsEngineModulus m) (hn : n ≤ 5) {e : MRG n} (h : Valid m e)
    (s k : BitVec 32) (i : Nat) : e.splitAt m s k i = (step m)^[k.toNat + 1 + s.toNat * i] e := by
  unfold splitAt
  have hk : (k.setWidth 64 + 1).toNat = k.toNat + 1 := by
    have := k.isLt
    rw [BitVec.toNat_add, BitVec.toNat_setWidth]
    show (k.toNat % 2 ^ 64 + 1) % 2 ^ 64 = _
    omega
  have hs : (s.setWidth 64).toNat = s.toNat := by
    have := s.isLt
    rw [BitVec.toNat_setWidth]; omega
  induction i with
  | zero => rw [Function.iterate_zero_apply, jump_eq hm hn h, hk, Nat.mul_zero, Nat.add_zero]
  | succ i ih =>
    rw [Function.iterate_succ_apply', ih, jump_eq hm hn (iterate_valid hm hn h _), hs,
      ← Function.iterate_add_apply]
    congr 1; ring

/-- The subsequences have no recurrence of an order between 1 and 4. -/
def NoShort [NeZero n] (m : Nat) [Fact m.Prime] (e : MRG n) (s : Nat) : Prop :=
  ∀ o k z, 0 < k → k < 5 → Rec (fun i => out m e (o + 1 + s * i)) k z → ∀ i, out m e (o + 1 + s * i) = 0

/-- The engine whose sequence is `P` -/
def ofSeq (m n : Nat) [NeZero m] (z P : Nat → ZMod m) : MRG n :=
  ⟨fun i => ((z i).val : Int), fun i => ((P (n - 1 - i)).val : Int)⟩

theorem ofSeq_valid [NeZero m] (z P : Nat → ZMod m) : Valid m (ofSeq m n z P) :=
  ⟨fun i => ⟨by simp only [ofSeq]; exact Int.natCast_nonneg _, by simp only [ofSeq]; exact_mod_cast ZMod.val_lt _⟩,
   fun i => ⟨by simp only [ofSeq]; exact Int.natCast_nonneg _, by simp only [ofSeq]; exact_mod_cast ZMod.val_lt _⟩⟩

theorem ofSeq_r [Fact m.Prime] (hm : IsEngineModulus m) (hn : n ≤ 5) {z P : Nat → ZMod m} (hrec : Rec P n z)
    (t : Nat) (i : Fin n) : ((((step m)^[t] (ofSeq m n z P)).r i : Int) : ZMod m) = P (n - 1 + t - i.val) := by
  induction t generalizing i with
  | zero => simp [ofSeq]
  | succ t ih =>
    rw [Function.iterate_succ_apply', step_r hm hn (iterate_valid hm hn (ofSeq_valid z P) t)]
    split
    · rename_i hi
      have hn0 : 0 < n := by have := i.isLt; omega
      rw [ZMod.intCast_mod]
      push_cast
      have := hrec t
      rw [show n - 1 + (t + 1) - i.val = t + n by omega, this, ← Fin.sum_univ_eq_sum_range (fun c => z c * P (t + n - 1 - c))]
      refine Finset.sum_congr rfl fun c _ => ?_
      rw [ih c, iterate_a, show n - 1 + t - c.val = t + n - 1 - c.val by omega]
      simp [ofSeq]
    · rename_i hi
      rw [ih]
      congr 1
      show n - 1 + t - (i.val - 1) = _
      omega

theorem split_core [NeZero n] [Fact m.Prime] (hm : IsEngineModulus m) (hn : n ≤ 5) {e : MRG n} (h : Valid m e)
    (s k : BitVec 32) (hs : 1 < s.toNat) (hk : k.toNat < s.toNat) :
    ∃ (K : Nat) (z P : Nat → ZMod m), Rec P n z ∧ LastCoeff (ofSeq m n z P).a K ∧
      (∀ i, P (i + 2 * n) = out m e (k.toNat + 1 + s.toNat * i)) ∧
      ((n = 5 → NoShort m e s.toNat) → n = 5 → K = 0 ∨ K = 5) ∧
      split m e s k = backwardN m n ((step m)^[2 * n] (ofSeq m n z P)) := by
  obtain ⟨m1, m2⟩ := engineModulus_bounds hm
  obtain ⟨N, hN, hcyc⟩ := out_periodic hm hn h
  have hn0 : 0 < n := NeZero.pos n
  have hout : ∀ i t, out m e (i + 1 + t * N) = out m e (i + 1) := by
    intro i t
    induction t with
    | zero => simp
    | succ t ih =>
      rw [show i + 1 + (t + 1) * N = (i + t * N) + 1 + N by ring, hcyc, ← ih]
      congr 1; ring
  -- the sequence, with 2n entries before the first one that is used
  obtain ⟨o, ho⟩ : ∃ o, o = k.toNat + 1 + s.toNat * (2 * n * N - 2 * n) := ⟨_, rfl⟩
  have ho1 : o - 1 + 1 = o := by omega
  obtain ⟨P, hP⟩ : ∃ P : Nat → ZMod m, P = fun i => out m e (o + s.toNat * i) := ⟨_, rfl⟩
  have hle : 2 * n ≤ 2 * n * N := Nat.le_mul_of_pos_right _ hN
  have hPQ : ∀ i, P (i + 2 * n) = out m e (k.toNat + 1 + s.toNat * i) := by
    intro i
    rw [hP]
    dsimp only
    rw [ho, show k.toNat + 1 + s.toNat * (2 * n * N - 2 * n) + s.toNat * (i + 2 * n) =
      k.toNat + s.toNat * i + 1 + (s.toNat * (2 * n)) * N by
        have : s.toNat * (2 * n * N - 2 * n) + s.toNat * (i + 2 * n) = s.toNat * i + s.toNat * (2 * n) * N := by
          rw [← Nat.mul_add, show 2 * n * N - 2 * n + (i + 2 * n) = i + 2 * n * N by omega]; ring
        omega, hout]
    congr 1; ring
  have hPer : ∀ i, P (i + N) = P i := by
    intro i
    rw [hP]
    dsimp only
    rw [ho, show ∀ w, k.toNat + 1 + s.toNat * w + s.toNat * (i + N) =
      k.toNat + s.toNat * w + s.toNat * i + 1 + s.toNat * N by intro w; ring, hout]
    congr 1; ring
  have hRec : ∃ d, Rec P n d := by rw [hP]; exact out_rec hm hn h o s.toNat
  obtain ⟨K, z, hKn, hz1, hz2, hz3, hmin⟩ := exists_minimal hN hPer hRec
  have hzn := hz1.lift hKn hz3
  have h5' : (n = 5 → NoShort m e s.toNat) → n = 5 → K = 0 ∨ K = 5 := by
    intro h5 h5n
    by_contra hc
    push Not at hc
    have h0 := h5 h5n (o - 1) K z (by omega) (by omega) (by rw [hP] at hz1; rw [ho1]; exact hz1)
    refine hmin 0 (fun _ => 0) (by omega) fun i => ?_
    simp only [Finset.range_zero, Finset.sum_empty, hP]
    rw [ho1] at h0
    exact h0 _
  -- gauss finds the minimal recurrence
  let q := fun i => (e.splitAt m s k i).r 0
  have hq : ∀ i, ((q i : Int) : ZMod m) = P (i + 2 * n) := by
    intro i
    show ((((e.splitAt m s k i).r 0 : Int)) : ZMod m) = _
    rw [splitAt_eq hm hn h, hPQ]; rfl
  have hqr : ∀ i, InR m (q i) := by
    intro i
    show InR m ((e.splitAt m s k i).r 0)
    rw [splitAt_eq hm hn h]
    exact (iterate_valid hm hn h _).r 0
  obtain ⟨x, hx1, hx2, hx3⟩ := gauss_complete (m := m) (by omega)
    (a := fun i j : Fin n => q (n - 1 + i.val - j.val)) (b := fun i => q (n + i.val))
    (fun _ _ => hqr _) (fun _ => hqr _) K
    (by
      intro y hy1 hy2
      obtain ⟨d, hd⟩ := hRec
      have := independent hN hPer hd hKn hmin (x := fun c => if hc : c < n then y ⟨c, hc⟩ else 0)
        (off := 3 * n - 1) (by omega) (by
          intro r hr
          have := hy2 ⟨r, hr⟩
          refine Eq.trans ?_ this
          simp only [hq]
          rw [Finset.sum_subset (Finset.range_subset_range.2 hKn)] <;> try intro c _ hc
          on_goal 2 => (rw [Finset.mem_range] at *; rename_i h1; rw [dif_pos h1, hy1 ⟨c, h1⟩ (by simpa using hc), zero_mul])
          rw [← Fin.sum_univ_eq_sum_range (fun c => (if hc : c < n then y ⟨c, hc⟩ else 0) * P (3 * n - 1 + r - c))]
          refine Finset.sum_congr rfl fun c _ => ?_
          rw [dif_pos c.isLt, mul_comm]
          congr 2
          omega)
      funext c
      by_cases hc : c.val < K
      · have := this c.val hc
        rw [dif_pos c.isLt] at this
        exact this
      · exact hy1 c (by omega))
    (fun c => z c) (fun c hc => hz3 c hc)
    (by
      intro r
      simp only [hq]
      have := hzn (2 * n + r.val)
      rw [show n + r.val + 2 * n = 2 * n + r.val + n by omega, this,
        ← Fin.sum_univ_eq_sum_range (fun c => z c * P (2 * n + r.val + n - 1 - c))]
      refine Finset.sum_congr rfl fun c _ => ?_
      rw [mul_comm]
      congr 2
      omega)
  -- the state handed to backward
  have hxe : (⟨x, fun i => q (n - 1 - i.val)⟩ : MRG n) = (step m)^[2 * n] (ofSeq m n z P) := by
    refine ext_cast (m := m) ⟨hx2, fun _ => hqr _⟩ (iterate_valid hm hn (ofSeq_valid z P) _) ?_ ?_
    · rw [iterate_a]
      funext c
      refine (hx2 c).inj ((ofSeq_valid z P).a c) ?_
      rw [hx3]; simp [ofSeq]
    · funext i
      show ((q (n - 1 - i.val) : Int) : ZMod m) = ((((step m)^[2 * n] (ofSeq m n z P)).r i : Int) : ZMod m)
      rw [hq, ofSeq_r hm hn hzn]
      congr 1
      omega
  have hlc : LastCoeff (ofSeq m n z P).a K := by
    refine ⟨hKn, fun c hc => ?_, fun c hc => ?_⟩
    · have h0 := hz2 (by omega)
      have : z c.val ≠ 0 := by rw [show c.val = K - 1 by omega]; exact h0
      simp only [ofSeq]
      intro hcc
      exact this ((ZMod.val_eq_zero _).1 (by exact_mod_cast hcc))
    · simp [ofSeq, hz3 c.val hc]
  refine ⟨K, z, P, hzn, hlc, hPQ, h5', ?_⟩
  unfold split
  have c1 : ¬ (s < 1 ∨ k ≥ s) := by
    rw [ge_iff_le, BitVec.le_def, BitVec.lt_def]
    show ¬ (s.toNat < 1 ∨ _)
    omega
  have c2 : s > 1 := by
    rw [gt_iff_lt, BitVec.lt_def]; exact hs
  rw [if_neg c1, if_pos c2]
  dsimp only
  show (match gauss (fun i j : Fin n => q (n - 1 + i.val - j.val)) (fun i => q (n + i.val)) m with
  | .throws => _ | .ub => _ | .ok x => backwardN m n ⟨x, fun i => q (n - 1 - i.val)⟩) = _
  rw [hx1, ← hxe]

theorem split_spec [NeZero n] [Fact m.Prime] (hm : IsEngineModulus m) (hn : n ≤ 5) {e : MRG n} (h : Valid m e)
    (s k : BitVec 32) (hs : 1 < s.toNat) (hk : k.toNat < s.toNat) (h5 : n = 5 → NoShort m e s.toNat) :
    ∃ e', split m e s k = .ok e' ∧ Valid m e' ∧
      ∀ j, out m e' (j + 1) = out m e (k.toNat + 1 + s.toNat * j) := by
  obtain ⟨K, z, P, hzn, hlc, hPQ, h5', hsp⟩ := split_core hm hn h s k hs hk
  have hback := backwardN_iterate hm hn (ofSeq_valid (n := n) z P) hlc (h5' h5) n n (by omega)
  rw [← two_mul, ← hsp] at hback
  refine ⟨_, hback, iterate_valid hm hn (ofSeq_valid (n := n) z P) n, fun j => ?_⟩
  rw [out_add]
  unfold out
  rw [ofSeq_r hm hn hzn]
  have := hPQ j
  unfold out at this
  rw [← this]
  congr 1
  show n - 1 + (j + 1 + n) - 0 = _
  have := NeZero.pos n
  omega

/-- `split` with correct arguments never throws. -/
theorem split_ok [NeZero n] [Fact m.Prime] (hm : IsEngineModulus m) (hn : n ≤ 5) {e : MRG n} (h : Valid m e)
    (s k : BitVec 32) (hk : k.toNat < s.toNat) : ∃ e', split m e s k = .ok e' ∧ Valid m e' := by
  obtain ⟨m1, m2⟩ := engineModulus_bounds hm
  by_cases hs : 1 < s.toNat
  · obtain ⟨K, z, P, -, -, -, -, hsp⟩ := split_core hm hn h s k hs hk
    rw [hsp]
    exact backwardN_ok (by omega) (iterate_valid hm hn (ofSeq_valid (n := n) z P) _) n
  · refine ⟨e, ?_, h⟩
    unfold split
    rw [if_neg (by rw [ge_iff_le, BitVec.le_def, BitVec.lt_def]; show ¬ (s.toNat < 1 ∨ _); omega),
      if_neg (by rw [gt_iff_lt, BitVec.lt_def]; exact hs)]

end Trng.MRG
