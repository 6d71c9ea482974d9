import Verif.Proofs.MTPoly
import Mathlib.SetTheory.Cardinal.Finite
import Mathlib.Data.Set.Card

/-! The period of the sequences of a Mersenne twister. -/
namespace Trng.MT
open LinAlg Gf2 Polynomial Spec
open LagFib (shiftOp shiftOp_pow)

variable {w n m r L : Nat} {a : BitVec w}

/-- a twister with primitive characteristic polynomial of full degree -/
structure Full (n m r L : Nat) (a : BitVec w) : Prop where
  m_pos : 1 ≤ m
  m_lt : m < n
  r_pos : 0 < r
  r_lt : r < w
  len : L = (w - r) + w * (n - 1)
  prim : Prim (charNat n m r a.toNat (w - 1) 0 1) L

theorem Full.low (h : Full n m r L a) {X : Nat → BitVec w} (hX : TwisterRecurrence n m r a X) :
    aeval shiftOp (toPoly (charNat n m r a.toNat (w - 1) 0 1)) (fun t => bits X 0 (t + 1)) = 0 := by
  have := h.m_pos
  have := h.m_lt
  have := h.r_lt
  exact aeval_charNat (by omega) h.m_pos h.r_pos (w - 1) (by omega) (det_zero n m r a) hX

/-- equal lowest bits: equal words -/
theorem Full.eq_of_low (h : Full n m r L a) {X X' : Nat → BitVec w} (hX : TwisterRecurrence n m r a X)
    (hX' : TwisterRecurrence n m r a X') (i i' : Nat)
    (he : ∀ t, bits X 0 (t + i + 1) = bits X' 0 (t + i' + 1)) (t : Nat) : X (t + i + 1) = X' (t + i' + 1) := by
  have := h.m_pos
  have := h.m_lt
  apply BitVec.eq_of_getLsbD_eq
  intro j hj
  obtain ⟨q, hq⟩ := exists_det a (n := n) (m := m) (by omega) h.m_pos h.r_pos j hj
  have h1 := hq X hX (t + i)
  have h2 := hq X' hX' (t + i')
  have hs : ∀ (z : Nat → GF2) (t i : Nat), aeval shiftOp (toPoly q) z (t + i) =
      aeval shiftOp (toPoly q) (fun t => z (t + i)) t := by
    intro z t i
    have e1 : (fun t => aeval shiftOp (toPoly q) z (t + i)) = (shiftOp ^ i) (aeval shiftOp (toPoly q) z) :=
      (shiftOp_pow i _).symm
    have e2 : (fun t => z (t + i)) = (shiftOp ^ i) z := (shiftOp_pow i z).symm
    have e3 := congrFun e1 t
    beta_reduce at e3
    rw [e3, e2, ← Module.End.mul_apply, ← Module.End.mul_apply]
    have : shiftOp ^ i * aeval shiftOp (toPoly q) = aeval shiftOp (toPoly q) * shiftOp ^ i := by
      rw [← aeval_X_pow (R := GF2) shiftOp, ← map_mul, ← map_mul, mul_comm]
    rw [this]
  rw [hs] at h1 h2
  have h3 : (fun t => bits X 0 (t + i + 1)) = fun t => bits X' 0 (t + i' + 1) := funext he
  rw [h3, ← h2] at h1
  exact congrArg GF2.value h1

theorem zero_twister (n m r : Nat) (a : BitVec w) : TwisterRecurrence n m r a fun _ => 0#w := by
  intro i
  refine ⟨0#w, fun j _ => ?_, ?_⟩
  · split <;> rfl
  · simp

/-- the sequence does not vanish from place 1 on -/
def Nonzero (X : Nat → BitVec w) : Prop := ∃ i, 1 ≤ i ∧ X i ≠ 0

/-- The words repeat exactly after multiples of `2^L - 1`. -/
theorem Full.period_iff (h : Full n m r L a) {X : Nat → BitVec w} (hX : TwisterRecurrence n m r a X) (hne : Nonzero X)
    (i j : Nat) : (∀ t, X (t + i + 1) = X (t + j + 1)) ↔ i ≡ j [MOD 2 ^ L - 1] := by
  have hv : (fun t => bits X 0 (t + 1)) ≠ 0 := by
    intro hc
    obtain ⟨k, hk, hxk⟩ := hne
    apply hxk
    have := h.eq_of_low hX (zero_twister n m r a) 0 0 (fun t => by
      refine (congrFun hc t).trans ?_
      show (0 : GF2) = ⟨(0#w).getLsbD 0⟩
      simp; rfl) (k - 1)
    rw [show k - 1 + 0 + 1 = k by omega] at this
    exact this
  have hL : 1 ≤ L := by
    rw [h.len]
    have := h.r_lt
    omega
  have key := pow_apply_eq_iff shiftOp h.prim.monic h.prim.degree hL h.prim.coeff h.prim.order hv (h.low hX) i j
  rw [← key, shiftOp_pow, shiftOp_pow]
  constructor
  · intro he
    funext t
    show bits X 0 (t + i + 1) = bits X 0 (t + j + 1)
    rw [bits, he t, ← bits]
  · intro he t
    exact h.eq_of_low hX hX i j (fun t => congrFun he t) t

/-- the sequence is determined by `n` words, of the first one only the upper bits -/
theorem twister_ext (hm : 1 ≤ m) (hmn : m < n) {X X' : Nat → BitVec w} (hX : TwisterRecurrence n m r a X)
    (hX' : TwisterRecurrence n m r a X') (h0 : ∀ j, j < w → r ≤ j → (X 0).getLsbD j = (X' 0).getLsbD j)
    (h1 : ∀ i, 1 ≤ i → i < n → X i = X' i) (t : Nat) : X (t + 1) = X' (t + 1) := by
  induction t using Nat.strong_induction_on with
  | _ t ih =>
    by_cases ht : t + 1 < n
    · exact h1 _ (by omega) ht
    · obtain ⟨k, hk⟩ : ∃ k, t + 1 = k + n := ⟨t + 1 - n, by omega⟩
      rw [hk]
      obtain ⟨Y, y1, y2⟩ := hX k
      obtain ⟨Y', y1', y2'⟩ := hX' k
      have hYY : Y = Y' := by
        apply BitVec.eq_of_getLsbD_eq
        intro j hj
        rw [y1 j hj, y1' j hj]
        split
        · rw [ih k (by omega)]
        · rename_i hr
          rcases Nat.eq_zero_or_pos k with hk0 | hk0
          · subst hk0; exact h0 j hj (by omega)
          · obtain ⟨l, rfl⟩ : ∃ l, k = l + 1 := ⟨k - 1, by omega⟩
            rw [ih l (by omega)]
      have hm' : X (k + m) = X' (k + m) := by
        have := ih (k + m - 1) (by omega)
        rwa [show k + m - 1 + 1 = k + m by omega] at this
      rw [y2, y2', hYY, hm']

theorem twister_shift {X : Nat → BitVec w} (hX : TwisterRecurrence n m r a X) (i : Nat) :
    TwisterRecurrence n m r a fun t => X (i + t) := by
  intro t
  obtain ⟨Y, y1, y2⟩ := hX (i + t)
  refine ⟨Y, fun j hj => ?_, ?_⟩
  · rw [y1 j hj, Nat.add_assoc]
  · show X (i + (t + n)) = X (i + (t + m)) ^^^ _ ^^^ _
    rw [← Nat.add_assoc, ← Nat.add_assoc]; exact y2

/-! ### the states -/

/-- the bits that determine the future: upper bits of a word, and the `n - 1` next words -/
abbrev Window (w n r : Nat) := BitVec (w - r) × (Fin (n - 1) → BitVec w)

/-- the window in place `i` -/
def window (r n : Nat) (X : Nat → BitVec w) (i : Nat) : Window w n r :=
  ((X i).extractLsb' r (w - r), fun k => X (i + 1 + k.val))

theorem window_ext (hm : 1 ≤ m) (hmn : m < n) {X X' : Nat → BitVec w} (hX : TwisterRecurrence n m r a X)
    (hX' : TwisterRecurrence n m r a X') {i i' : Nat} (h : window r n X i = window r n X' i') (t : Nat) :
    X (t + i + 1) = X' (t + i' + 1) := by
  have h1 := congrArg Prod.fst h
  have h2 := congrArg Prod.snd h
  have := twister_ext hm hmn (twister_shift hX i) (twister_shift hX' i') (fun j hj hr => ?_) (fun k hk hkn => ?_) t
  · rwa [show i + (t + 1) = t + i + 1 by omega, show i' + (t + 1) = t + i' + 1 by omega] at this
  · have := congrArg (fun z : BitVec (w - r) => z.getLsbD (j - r)) h1
    simp only [window, BitVec.getLsbD_extractLsb', show j - r < w - r by omega, decide_true, Bool.true_and,
      show r + (j - r) = j by omega] at this
    exact this
  · have := congrFun h2 ⟨k - 1, by omega⟩
    simp only [window] at this
    rwa [show i + 1 + (k - 1) = i + k by omega, show i' + 1 + (k - 1) = i' + k by omega] at this

theorem card_bitVec (w : Nat) : Nat.card (BitVec w) = 2 ^ w := by
  rw [Nat.card_congr (⟨BitVec.toFin, BitVec.ofFin, fun _ => rfl, fun _ => rfl⟩ : BitVec w ≃ Fin (2 ^ w)), Nat.card_fin]

theorem card_window (w n r : Nat) : Nat.card (Window w n r) = 2 ^ ((w - r) + w * (n - 1)) := by
  rw [Nat.card_prod, Nat.card_fun, card_bitVec, card_bitVec, Nat.card_fin, ← pow_mul, ← pow_add]

instance (w n r : Nat) : Finite (Window w n r) := Nat.finite_of_card_ne_zero (by rw [card_window]; positivity)

theorem nonzero_of_window (hm : 1 ≤ m) (hmn : m < n) {X : Nat → BitVec w} (hX : TwisterRecurrence n m r a X)
    (hne : Nonzero X) {i : Nat} (hp : ∃ T, 0 < T ∧ ∀ t, X (t + T + 1) = X (t + 1)) : window r n X i ≠ (0, fun _ => 0) := by
  intro hc
  have hz : window r n (fun _ => 0#w) 0 = (0, fun _ => 0) := by
    simp only [window]
    congr 1
    apply BitVec.eq_of_getLsbD_eq
    intro j hj
    rw [BitVec.getLsbD_extractLsb']
    simp
  have h := window_ext hm hmn hX (zero_twister n m r a) (hc.trans hz.symm)
  obtain ⟨T, hT, hp⟩ := hp
  obtain ⟨k, hk, hxk⟩ := hne
  apply hxk
  have hp' : ∀ c t, X (t + c * T + 1) = X (t + 1) := by
    intro c
    induction c with
    | zero => intro t; simp
    | succ c ih =>
      intro t
      rw [Nat.succ_mul, ← Nat.add_assoc, hp, ih]
  have h1 := hp' i (k - 1)
  have hle : i ≤ k - 1 + i * T := by
    have : i * 1 ≤ i * T := Nat.mul_le_mul_left _ hT
    omega
  have h2 := h (k - 1 + i * T - i)
  rw [show k - 1 + i * T - i + i + 1 = k - 1 + i * T + 1 by omega, h1, show k - 1 + 1 = k by omega] at h2
  exact h2

/-- During a period every window occurs exactly once, except the zero window. -/
theorem Full.windows (h : Full n m r L a) {X : Nat → BitVec w} (hX : TwisterRecurrence n m r a X) (hne : Nonzero X)
    (s : Nat) (z : Window w n r) (hz : z ≠ (0, fun _ => 0)) : ∃ i, i < 2 ^ L - 1 ∧ window r n X (s + i) = z := by
  classical
  have : Fintype (Window w n r) := Fintype.ofFinite _
  have hinj : Set.InjOn (fun i => window r n X (s + i)) (Finset.range (2 ^ L - 1) : Set Nat) := by
    intro i hi j hj hij
    rw [Finset.mem_coe, Finset.mem_range] at hi hj
    have := (h.period_iff hX hne (s + i) (s + j)).1 (window_ext h.m_pos h.m_lt hX hX hij)
    have := Nat.ModEq.add_left_cancel' s this
    rwa [Nat.ModEq, Nat.mod_eq_of_lt hi, Nat.mod_eq_of_lt hj] at this
  have hT : 0 < 2 ^ L - 1 := by
    have := h.r_lt
    have : 1 ≤ L := by rw [h.len]; omega
    have : 2 ^ 1 ≤ 2 ^ L := Nat.pow_le_pow_right (by omega) this
    omega
  have hsub : (Finset.range (2 ^ L - 1)).image (fun i => window r n X (s + i)) ⊆ Finset.univ.erase (0, fun _ => 0) := by
    intro u hu
    obtain ⟨i, _, rfl⟩ := Finset.mem_image.1 hu
    refine Finset.mem_erase.2 ⟨nonzero_of_window h.m_pos h.m_lt hX hne ⟨2 ^ L - 1, hT, ?_⟩, Finset.mem_univ _⟩
    exact (h.period_iff hX hne (2 ^ L - 1) 0).2 (Nat.modEq_zero_iff_dvd.2 dvd_rfl)
  have heq : (Finset.range (2 ^ L - 1)).image (fun i => window r n X (s + i)) = Finset.univ.erase (0, fun _ => 0) := by
    apply Finset.eq_of_subset_of_card_le hsub
    rw [Finset.card_erase_of_mem (Finset.mem_univ _), Finset.card_univ, ← Nat.card_eq_fintype_card, card_window,
      Finset.card_image_of_injOn hinj, Finset.card_range, h.len]
  have : z ∈ (Finset.range (2 ^ L - 1)).image (fun i => window r n X (s + i)) := by
    rw [heq]; exact Finset.mem_erase.2 ⟨hz, Finset.mem_univ _⟩
  obtain ⟨i, hi, e⟩ := Finset.mem_image.1 this
  exact ⟨i, Finset.mem_range.1 hi, e⟩

/-- How often a tuple of `n - 1` words occurs in a period. -/
theorem Full.count (h : Full n m r L a) {X : Nat → BitVec w} (hX : TwisterRecurrence n m r a X) (hne : Nonzero X)
    (s : Nat) (v : Fin (n - 1) → BitVec w) :
    ((Finset.range (2 ^ L - 1)).filter fun k => ∀ i : Fin (n - 1), X (s + 1 + k + i.val) = v i).card =
      if v = (fun _ => 0) then 2 ^ (w - r) - 1 else 2 ^ (w - r) := by
  classical
  have hT : 0 < 2 ^ L - 1 := by
    have := h.r_lt
    have : 1 ≤ L := by rw [h.len]; omega
    have : 2 ^ 1 ≤ 2 ^ L := Nat.pow_le_pow_right (by omega) this
    omega
  let S : Set (Window w n r) := {z | z.2 = v}
  have hS : S.ncard = 2 ^ (w - r) := by
    have : Nat.card S = Nat.card (BitVec (w - r)) :=
      Nat.card_congr ⟨fun z => z.1.1, fun u => ⟨(u, v), rfl⟩, fun z => Subtype.ext (Prod.ext rfl z.2.symm), fun _ => rfl⟩
    rw [card_bitVec] at this
    exact this
  have key : (((Finset.range (2 ^ L - 1)).filter fun k => ∀ i : Fin (n - 1), X (s + 1 + k + i.val) = v i : Finset Nat) :
      Set Nat).ncard = (S \ {(0, fun _ => 0)}).ncard := by
    refine Set.ncard_congr (fun k _ => window r n X (s + k)) ?_ ?_ ?_
    · intro k hk
      rw [Finset.mem_coe, Finset.mem_filter] at hk
      refine ⟨?_, nonzero_of_window h.m_pos h.m_lt hX hne ⟨2 ^ L - 1, hT, ?_⟩⟩
      · show (fun i : Fin (n - 1) => X (s + k + 1 + i.val)) = v
        funext i
        rw [← hk.2 i]
        congr 1
        omega
      · exact (h.period_iff hX hne (2 ^ L - 1) 0).2 (Nat.modEq_zero_iff_dvd.2 dvd_rfl)
    · intro i j hi hj hij
      rw [Finset.mem_coe, Finset.mem_filter, Finset.mem_range] at hi hj
      have := (h.period_iff hX hne (s + i) (s + j)).1 (window_ext h.m_pos h.m_lt hX hX hij)
      have := Nat.ModEq.add_left_cancel' s this
      rwa [Nat.ModEq, Nat.mod_eq_of_lt hi.1, Nat.mod_eq_of_lt hj.1] at this
    · rintro z ⟨hz, hz0⟩
      have hz : z.2 = v := hz
      obtain ⟨i, hi, e⟩ := h.windows hX hne s z hz0
      refine ⟨i, ?_, e⟩
      rw [Finset.mem_coe, Finset.mem_filter, Finset.mem_range]
      refine ⟨hi, fun k => ?_⟩
      rw [← hz, ← e]
      show _ = X (s + i + 1 + k.val)
      congr 1
      omega
  rw [Set.ncard_coe_finset] at key
  rw [key]
  by_cases hv : v = fun _ => 0
  · rw [if_pos hv, Set.ncard_sdiff_singleton_of_mem (by subst hv; rfl), hS]
  · rw [if_neg hv, Set.sdiff_singleton_eq_self, hS]
    intro hc
    have hc : (fun _ => 0) = v := hc
    exact hv hc.symm

end Trng.MT
