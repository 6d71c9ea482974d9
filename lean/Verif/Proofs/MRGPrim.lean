import Verif.Spec.MRG
import Verif.Proofs.Companion
import Verif.Proofs.Primes

/-! Orders of the companion matrices of the built-in parameter sets. -/
namespace Trng.MRG
open IntMath Matrix PowMod

variable {n m : Nat}

instance factModulus (K : Kind) : Fact K.modulus.Prime :=
  ⟨by cases K <;> first | exact prime_2147483647 | exact prime_2147462579 | exact prime_2147461007⟩

/-- the computations for a companion matrix of order `N` -/
def ordCheck (m n : Nat) (f : List Nat) (N : Nat) (l : List (Nat × Nat)) : Bool :=
  decide (0 < N) && decide (N < 2 ^ 160) && decide (prodPow l = N) &&
  decide ((powX m f N).map (· % m) = oneList n) &&
  l.all fun q => decide ((powX m f (N / q.1)).map (· % m) ≠ oneList n)

theorem order_of_check {a : Fin n → Int} {f : List Nat} (hf : charList a = f) (hm : 1 < m) (hn : 0 < n)
    (ha : ∀ i, 0 ≤ a i) {N : Nat} {l : List (Nat × Nat)} (hl : ∀ q ∈ l, q.1.Prime)
    (h : ordCheck m n f N l = true) : orderOf (comp m a) = N := by
  simp only [ordCheck, Bool.and_eq_true, decide_eq_true_eq, List.all_eq_true] at h
  obtain ⟨⟨⟨⟨h0, h1⟩, h2⟩, h3⟩, h4⟩ := h
  subst hf
  rw [← h2] at h0 h1 h3 h4 ⊢
  refine orderOf_of_checks _ l hl h0 ?_ ?_
  · rw [comp_pow_eq_one_iff hm hn ha h1]; exact h3
  · intro q hq hc
    rw [comp_pow_eq_one_iff hm hn ha (lt_of_le_of_lt (Nat.div_le_self _ _) h1)] at hc
    exact h4 q hq hc

/-- If the companion matrix has odd order `(m^n-1)/2`, its negative has order `m^n - 1`. -/
theorem neg_order [Fact m.Prime] {a : Fin n → Int} (hn : 0 < n) (hm2 : 2 < m) {N : Nat} (hodd : N % 2 = 1)
    (h : orderOf (comp m a) = N) : orderOf ((-1 : ZMod m) • comp m a) = 2 * N := by
  have hne : Nonempty (Fin n) := ⟨⟨0, hn⟩⟩
  have h2 : orderOf ((-1 : ZMod m) • (1 : Matrix (Fin n) (Fin n) (ZMod m))) = 2 := by
    refine orderOf_eq_prime ?_ ?_
    · rw [smul_pow, one_pow, neg_one_sq, one_smul]
    · intro hc
      have := congrFun (congrFun hc ⟨0, hn⟩) ⟨0, hn⟩
      rw [Matrix.smul_apply, Matrix.one_apply_eq, smul_eq_mul, mul_one] at this
      have h3 : ((2 : Nat) : ZMod m) = 0 := by
        rw [show ((2 : Nat) : ZMod m) = 1 - (-1) by push_cast; ring, this, sub_self]
      rw [ZMod.natCast_eq_zero_iff] at h3
      exact absurd (Nat.le_of_dvd (by omega) h3) (by omega)
  have hc : Commute ((-1 : ZMod m) • (1 : Matrix (Fin n) (Fin n) (ZMod m))) (comp m a) :=
    (Commute.one_left _).smul_left _
  have := hc.orderOf_mul_eq_mul_orderOf_of_coprime (by rw [h2, h]; exact (Nat.coprime_two_left).2 (Nat.odd_iff.2 hodd))
  rw [h2, h, smul_mul_assoc, one_mul] at this
  exact this

theorem params_nonneg (l : List Int) (h : ∀ x ∈ l, 0 ≤ x) (i : Fin n) : 0 ≤ (params l : Fin n → Int) i := by
  unfold params
  rw [List.getD_eq_getElem?_getD]
  rcases hx : l[i.val]? with _ | x
  · simp
  · exact h x (List.mem_of_getElem? hx)

/-- the prime factors of `m^n - 1` -/
def facN : Kind → List (Nat × Nat)
  | .k2 => [(2, 32), (3, 2), (7, 1), (11, 1), (31, 1), (151, 1), (331, 1)]
  | .k3 => [(2, 1), (3, 3), (7, 1), (11, 1), (31, 1), (151, 1), (331, 1), (529510939, 1), (2903110321, 1)]
  | .k3s => [(2, 1), (1073731289, 1), (4611595530352793821, 1)]
  | .k4 => [(2, 33), (3, 2), (5, 1), (7, 1), (11, 1), (31, 1), (151, 1), (331, 1), (733, 1), (1709, 1),
      (368140581013, 1)]
  | .k5 => [(2, 1), (3, 2), (7, 1), (11, 1), (31, 1), (61, 1), (151, 1), (271, 1), (331, 1),
      (1286531238451883917612880674872731, 1)]
  | .k5s => [(2, 1), (1073730503, 1), (21266751054232131901454750443841176801, 1)]

theorem facN_prime (K : Kind) : ∀ q ∈ facN K, q.1.Prime := by
  cases K <;>
  · simp only [facN, List.forall_mem_cons, List.not_mem_nil, false_imp_iff, implies_true, and_true]
    simp only [prime_2, prime_3, prime_5, prime_7, prime_11, prime_31, prime_61, prime_151, prime_271, prime_331,
      prime_733, prime_1709, prime_529510939, prime_2903110321, prime_1073731289, prime_4611595530352793821,
      prime_368140581013, prime_1286531238451883917612880674872731, prime_1073730503,
      prime_21266751054232131901454750443841176801, and_self]

/-- all checks for the parameter sets with full period -/
def fullCheck (K : Kind) : Bool :=
  (Spec.fullPeriod K).all fun l => l.all (fun x => decide (0 ≤ x)) && decide (l.length = K.order) &&
    ordCheck K.modulus K.order (l.map Int.toNat).reverse (K.modulus ^ K.order - 1) (facN K)

theorem fullCheck_true (K : Kind) : fullCheck K = true := by
  cases K <;> decide +kernel

/-- all checks for the parameter sets with half the period -/
def halfCheck (K : Kind) : Bool :=
  (Spec.halfPeriod K).all fun l => l.all (fun x => decide (0 ≤ x)) && decide (l.length = K.order) &&
    decide ((K.modulus ^ K.order - 1) % 4 = 2) &&
    ordCheck K.modulus K.order (l.map Int.toNat).reverse ((K.modulus ^ K.order - 1) / 2) ((facN K).drop 1)

theorem halfCheck_true (K : Kind) : halfCheck K = true := by
  cases K <;> decide +kernel

theorem charList_params (l : List Int) (hl : l.length = n) :
    charList (params l : Fin n → Int) = (l.map Int.toNat).reverse := by
  unfold charList
  congr 1
  refine List.ext_getElem (by simp [hl]) fun i h1 h2 => ?_
  simp only [List.length_ofFn] at h1
  simp only [List.getElem_ofFn, List.getElem_map, params]
  rw [List.getD_eq_getElem _ _ (by omega)]

theorem modulus_gt (K : Kind) : 2 < K.modulus := by cases K <;> decide

theorem fullPeriod_order (K : Kind) (l : List Int) (hl : l ∈ Spec.fullPeriod K) :
    (∀ i, 0 ≤ (params l : Fin K.order → Int) i) ∧
    orderOf (comp K.modulus (params l : Fin K.order → Int)) = K.modulus ^ K.order - 1 := by
  have h := fullCheck_true K
  simp only [fullCheck, List.all_eq_true, Bool.and_eq_true, decide_eq_true_eq] at h
  obtain ⟨⟨h1, h2⟩, h3⟩ := h l hl
  have hnn := params_nonneg (n := K.order) l h1
  have := modulus_gt K
  exact ⟨hnn, order_of_check (charList_params l h2) (by omega) (NeZero.pos _) hnn (facN_prime K) h3⟩

theorem halfPeriod_order (K : Kind) (l : List Int) (hl : l ∈ Spec.halfPeriod K) :
    (∀ i, 0 ≤ (params l : Fin K.order → Int) i) ∧
    orderOf (comp K.modulus (params l : Fin K.order → Int)) = (K.modulus ^ K.order - 1) / 2 ∧
    orderOf ((-1 : ZMod K.modulus) • comp K.modulus (params l : Fin K.order → Int)) = K.modulus ^ K.order - 1 := by
  have h := halfCheck_true K
  simp only [halfCheck, List.all_eq_true, Bool.and_eq_true, decide_eq_true_eq] at h
  obtain ⟨⟨⟨h1, h2⟩, h4⟩, h3⟩ := h l hl
  have hnn := params_nonneg (n := K.order) l h1
  have := modulus_gt K
  have hord := order_of_check (charList_params l h2) (by omega) (NeZero.pos _) hnn
    (fun q hq => facN_prime K q (List.mem_of_mem_drop hq)) h3
  refine ⟨hnn, hord, ?_⟩
  rw [neg_order (NeZero.pos _) this (by omega) hord]
  omega

/-- The second parameter set of mrg4 and yarn4 has order `m^2 - 1` only. -/
theorem lecuyer2_order : orderOf (comp (Kind.modulus .k4) (params [64886, 0, 0, 64322] : Fin (Kind.order .k4) → Int)) =
    (Kind.modulus .k4) ^ 2 - 1 := by
  refine order_of_check (charList_params _ rfl) (by decide) (by decide) (params_nonneg _ (by decide))
    (facN_prime .k2) (by decide +kernel)

end Trng.MRG
