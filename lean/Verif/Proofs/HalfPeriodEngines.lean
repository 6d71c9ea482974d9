import Verif.Proofs.HalfPeriod

/-! Engines of half the period: the linear maps, and the laws of samples. -/
namespace Trng.HalfPeriod
set_option linter.unusedSectionVars false
open XR FP Spec Trng.Uniform Matrix Streams MRG Props PeriodLaw PowMod

/-! ### The engines -/

theorem scaled_pow [Fact m.Prime] {n : ℕ} {a : Fin n → Int} (hn : 0 < n) (ha : ∀ i, 0 ≤ a i) (hN : m ^ n - 1 < 2 ^ 160) {c : ZMod m}
    (hord : orderOf (c • comp m a) = m ^ n - 1) {v : Fin n → ZMod m} (hv : v ≠ 0) {t : Nat} (ht : t < 2 ^ 160) (h : (c • comp m a) ^ t *ᵥ v = v) :
    (c • comp m a) ^ t = 1 := by
  obtain ⟨-, h2⟩ := comp_pow_eq_pol (m := m) hn ha (E := t) ht
  by_contra hne
  have h3 : (c • comp m a) ^ t - 1 = pol m a ((c ^ t • fun i => (((powList m a t).getD i.val 0 : Nat) : ZMod m)) - Pi.single ⟨0, hn⟩ 1) := by
    rw [pol_sub, pol_smul, ← h2, pol_one, smul_pow]
  have h4 : ((c ^ t • fun i : Fin n => (((powList m a t).getD i.val 0 : Nat) : ZMod m)) - Pi.single ⟨0, hn⟩ 1) ≠ 0 := by
    intro h0
    rw [h0, pol_zero] at h3
    exact hne (sub_eq_zero.1 h3)
  have h5 : ((c • comp m a) ^ t - 1) *ᵥ v = 0 := by rw [sub_mulVec, h, one_mulVec, sub_self]
  rw [h3] at h5
  have : NeZero n := ⟨by omega⟩
  exact mulVec_ne (pol_isUnit hn ha hN hord _ h4) hv h5

/-- A matrix of the largest order moves every vector through all others. -/
theorem cyclic_of_scaled [Fact m.Prime] {n : ℕ} [NeZero n] {a : Fin n → Int} (ha : ∀ i, 0 ≤ a i) (hN : m ^ n - 1 < 2 ^ 160) {c : ZMod m}
    (hord : orderOf (c • comp m a) = m ^ n - 1) {v : Fin n → ZMod m} (hv : v ≠ 0) : Cyclic (c • comp m a) v := by
  have hT := period_pos (p := m) (n := n)
  have hunit : IsUnit (c • comp m a) := by
    refine IsUnit.of_pow_eq_one (n := m ^ n - 1) ?_ (by omega)
    rw [← hord]; exact pow_orderOf_eq_one _
  have hle : ∀ i j, i ≤ j → j < m ^ n - 1 → (c • comp m a) ^ i *ᵥ v = (c • comp m a) ^ j *ᵥ v → i = j := fun i j hij hj e => by
    have e2 : (c • comp m a) ^ i *ᵥ ((c • comp m a) ^ (j - i) *ᵥ v - v) = 0 := by
      rw [mulVec_sub, mulVec_mulVec, ← pow_add, Nat.add_sub_cancel' hij, e, sub_self]
    have e3 : (c • comp m a) ^ (j - i) *ᵥ v = v := by
      by_contra hne
      exact mulVec_ne (hunit.pow i) (sub_ne_zero.2 hne) e2
    have e4 := scaled_pow (NeZero.pos _) ha hN hord hv (by omega) e3
    have e5 := orderOf_dvd_of_pow_eq_one e4
    rw [hord] at e5
    have := Nat.eq_zero_of_dvd_of_lt e5 (by omega)
    omega
  refine ⟨hv, hord, fun w hw => ?_⟩
  have hs := Finset.surjOn_of_injOn_of_card_le (s := Finset.range (m ^ n - 1)) (t := Finset.univ.erase (0 : Fin n → ZMod m)) (fun k => (c • comp m a) ^ k *ᵥ v)
    (fun k _ => by rw [Finset.coe_erase]; exact ⟨Finset.mem_coe.2 (Finset.mem_univ _), by simpa using mulVec_ne (hunit.pow k) hv⟩)
    (fun i hi j hj e => by
      rw [Finset.mem_coe, Finset.mem_range] at hi hj
      rcases Nat.le_total i j with hij | hij
      · exact hle i j hij hj e
      · exact (hle j i hij hi e.symm).symm)
    (by rw [Finset.card_range, Finset.card_erase_of_mem (Finset.mem_univ _), Finset.card_univ, Fintype.card_fun, ZMod.card, Fintype.card_fin])
  obtain ⟨t, ht, e⟩ := hs (Finset.mem_coe.2 (Finset.mem_erase.2 ⟨hw, Finset.mem_univ w⟩))
  exact ⟨t, Finset.mem_range.1 (Finset.mem_coe.1 ht), e⟩

variable {K : Kind} {l : List Int}

theorem nine_le (K : Kind) : 9 ≤ K.modulus := by cases K <;> decide

/-- The facts about a parameter set of half the period. -/
theorem half_facts (hl : l ∈ halfPeriod K) : 2 ∣ K.modulus ^ K.order - 1 ∧ 2 * ((K.modulus ^ K.order - 1) / 2) = K.modulus ^ K.order - 1 ∧
    (K.modulus ^ K.order - 1) / 2 % 2 = 1 ∧ (- -comp K.modulus (params l : Fin K.order → Int)) ^ ((K.modulus ^ K.order - 1) / 2) = 1 := by
  have h4 : (K.modulus ^ K.order - 1) % 4 = 2 := by
    cases K <;> first | exact absurd hl List.not_mem_nil | decide
  obtain ⟨-, h1, -⟩ := halfPeriod_order K l hl
  refine ⟨by omega, by omega, by omega, ?_⟩
  rw [neg_neg, ← h1]
  exact pow_orderOf_eq_one _

theorem half_cyclic (hl : l ∈ halfPeriod K) {e : MRG K.order} (hr : InRange K.modulus e) (hz : NonZero e) :
    Cyclic (-comp K.modulus (params l : Fin K.order → Int)) (castV K.modulus e.r) := by
  obtain ⟨hnn, -, h2⟩ := halfPeriod_order K l hl
  have hN : K.modulus ^ K.order - 1 < 2 ^ 160 := lt_trans (bound_order (K := K)).1 (by norm_num)
  rw [← neg_one_smul (ZMod K.modulus)]
  exact cyclic_of_scaled hnn hN h2 (castV_ne_zero (valid_iff.1 hr) hz)

/-- The state after one call, from which on the first components are the numbers. -/
theorem half_cyclic' (hl : l ∈ halfPeriod K) {e : MRG K.order} (hr : InRange K.modulus e) (hz : NonZero e) :
    Cyclic (-comp K.modulus (params l : Fin K.order → Int)) (comp K.modulus (params l : Fin K.order → Int) *ᵥ castV K.modulus e.r) := by
  obtain ⟨-, -, ho, hn⟩ := half_facts hl
  have := (half_cyclic hl hr hz).shift (1 + (K.modulus ^ K.order - 1) / 2)
  have e1 := neg_pow_chi ho hn 1
  rw [if_neg (by norm_num), neg_neg, pow_one] at e1
  rwa [← e1] at this

/-- Streams without a linear relation are nearly independent. -/
theorem nearly (hl : l ∈ halfPeriod K) {d : ℕ} (es : Fin (d + 1) → {e : MRG K.order // InRange K.modulus e}) (hu : ∀ i, Uses (es i).1 l) (hz : ∀ i, NonZero (es i).1)
    (hno : ∀ g : Fin (d + 1) → ℤ, (∀ k, (K.modulus : ℤ) ∣ ∑ i, g i * nth (call K.modulus) (es i).1 k) → ∀ i, (K.modulus : ℤ) ∣ g i) :
    StreamsNearly (mrgGen K) es ((K.modulus ^ K.order - 1) / 2) (1 / √((K.modulus : ℝ) ^ (K.order - (d + 1)))) := by
  classical
  have h2 := two_lt K
  obtain ⟨f1, f2, f3, f4⟩ := half_facts hl
  have hT := (bound_order (K := K)).2
  have hc0 := half_cyclic hl (es 0).2 (hz 0)
  have hcyc := half_cyclic' hl (es 0).2 (hz 0)
  choose L _ hL using fun i => hc0.reach (castV K.modulus (es i).1.r) (castV_ne_zero (valid_iff.1 (es i).2) (hz i))
  generalize hC : comp K.modulus (params l : Fin K.order → Int) = C at *
  have hx : ∀ i k, ((nth (call K.modulus) (es i).1 k : Int) : ZMod K.modulus) = proj (-C) L (C ^ k *ᵥ (C *ᵥ castV K.modulus (es 0).1.r)) i := fun i k => by
    have hcomm : Commute (C ^ (k + 1)) ((-C) ^ L i) := ((Commute.refl C).neg_right.pow_pow _ _)
    rw [nth_cast (es i).2 (hu i), hC, ← hL, proj_apply, mulVec_mulVec, mulVec_mulVec, mulVec_mulVec, mul_assoc, ← pow_succ, hcomm.eq]
  have hs : Function.Surjective (proj (-C) L) := by
    refine proj_surjective fun g hg => funext fun i => ?_
    have := hno (fun i => ((g i).val : ℤ)) (fun k => ?_) i
    · rw [← ZMod.intCast_zmod_eq_zero_iff_dvd] at this
      simpa using this
    · rw [← ZMod.intCast_zmod_eq_zero_iff_dvd]
      push_cast
      rw [← hg (C ^ k *ᵥ (C *ᵥ castV K.modulus (es 0).1.r))]
      refine Finset.sum_congr rfl fun i _ => ?_
      rw [hx, proj_apply, ZMod.natCast_zmod_val]
  refine ⟨by omega, fun W hW => ?_⟩
  have hmax : ∀ v ∈ W, ∀ i, v i < K.modulus := fun v hv i => by
    have : v i ≤ K.modulus - 1 := (hW v hv i).2
    omega
  let cst : (Fin (d + 1) → ℕ) → Fin (d + 1) → ZMod K.modulus := fun v i => (v i : ZMod K.modulus)
  have hinj : ∀ v w : Fin (d + 1) → ℕ, (∀ i, v i < K.modulus) → (∀ i, w i < K.modulus) → cst v = cst w → v = w := fun v w hv hw e => funext fun i => by
    have := congrFun e i
    simp only [cst, ZMod.natCast_eq_natCast_iff', Nat.mod_eq_of_lt (hv i), Nat.mod_eq_of_lt (hw i)] at this
    exact this
  have key := half_fraction hcyc f1 f2 f3 f4 hs (nine_le K) (W.image cst)
  rw [Finset.card_image_of_injOn fun v hv w hw e => hinj v w (hmax v (Finset.mem_coe.1 hv)) (hmax w (Finset.mem_coe.1 hw)) e] at key
  refine le_trans (le_of_eq ?_) key
  have hN : ((mrgGen K).max - (mrgGen K).min + 1 : ℕ) = K.modulus := by
    show K.modulus - 1 - 0 + 1 = K.modulus
    omega
  rw [hN]
  congr! 6 with k _
  rw [neg_neg]
  have hcast : proj (-C) L (C ^ k *ᵥ (C *ᵥ castV K.modulus (es 0).1.r)) = cst fun i => nth (mrgGen K).call (es i) k := funext fun i => by
    rw [← hx, ← gen_cast]
  rw [hcast]
  constructor
  · intro hk
    exact Finset.mem_image_of_mem _ hk
  · intro hk
    obtain ⟨v, hv, e⟩ := Finset.mem_image.1 hk
    rw [← hinj v _ (hmax v hv) (fun i => gen_lt _ _) e]
    exact hv

/-- How often the numbers of a single engine occur. -/
theorem frequency (hl : l ∈ halfPeriod K) {e : MRG K.order} (hr : InRange K.modulus e) (hu : Uses e l) (hz : NonZero e) (c : ℤ → ℕ)
    (hc : ∀ v, c v = ((Finset.range ((K.modulus ^ K.order - 1) / 2)).filter fun k => nth (call K.modulus) e k = v).card) :
    2 * c 0 + 1 = K.modulus ^ (K.order - 1) ∧ (2 * (c 1 : ℤ) - K.modulus ^ (K.order - 1)) ^ 2 = K.modulus ^ (K.order - 1) ∧ c 1 + c (K.modulus - 1) = K.modulus ^ (K.order - 1) ∧
      ∀ v : ℤ, 0 < v → v < K.modulus → ((∃ x : ℤ, (K.modulus : ℤ) ∣ x * x - v) → c v = c 1) ∧ ((¬ ∃ x : ℤ, (K.modulus : ℤ) ∣ x * x - v) → c v = c (K.modulus - 1)) := by
  have h2 := two_lt K
  obtain ⟨f1, f2, f3, f4⟩ := half_facts hl
  have hcyc := half_cyclic' hl hr hz
  have hs : Function.Surjective (proj (n := K.order) (d := 1) (-comp K.modulus (params l : Fin K.order → Int)) fun _ => 0) := by
    refine proj_surjective fun g hg => funext fun i => ?_
    have := hg (Pi.single 0 1)
    simp only [pow_zero, one_mulVec, Pi.single_eq_same, mul_one, Finset.univ_unique, Finset.sum_singleton] at this
    rw [Subsingleton.elim i default]; exact this
  have hv : ∀ v : ℤ, 0 ≤ v → v < K.modulus → ∀ k, nth (call K.modulus) e k = v ↔
      proj (n := K.order) (d := 1) (-comp K.modulus (params l : Fin K.order → Int)) (fun _ => 0) ((- -comp K.modulus (params l : Fin K.order → Int)) ^ k *ᵥ
        (comp K.modulus (params l : Fin K.order → Int) *ᵥ castV K.modulus e.r)) 0 = (v : ZMod K.modulus) := fun v v0 v1 k => by
    obtain ⟨a1, a2, -⟩ := C26_mrg_range K e hr k
    rw [neg_neg, proj_apply, pow_zero, one_mulVec, mulVec_mulVec, ← pow_succ, ← nth_cast hr hu, ZMod.intCast_eq_intCast_iff', Int.emod_eq_of_lt v0 v1]
    rw [Int.emod_eq_of_lt a1 (by omega)]
  have key := half_one hcyc f1 f2 f3 f4 hs (fun a => c a.val) fun a => by
    rw [hc]
    congr 1
    refine Finset.filter_congr fun k _ => ?_
    rw [hv a.val (by positivity) (by have := ZMod.val_lt a; omega)]
    rw [Int.cast_natCast, ZMod.natCast_zmod_val]
  have hone : ((1 : ZMod K.modulus).val : ℤ) = 1 := by
    have : Fact (1 < K.modulus) := ⟨by omega⟩
    rw [ZMod.val_one]; rfl
  have hval : ∀ v : ℤ, 0 ≤ v → v < K.modulus → (((v : ZMod K.modulus)).val : ℤ) = v := fun v v0 v1 => by rw [ZMod.val_intCast, Int.emod_eq_of_lt v0 v1]
  have hm1 : (((-1 : ZMod K.modulus)).val : ℤ) = K.modulus - 1 := by
    rw [← hval (K.modulus - 1) (by omega) (by omega)]
    congr 2
    push_cast
    rw [ZMod.natCast_self, zero_sub]
  simp only [hone, hm1, ZMod.val_zero, Nat.cast_zero] at key
  obtain ⟨k1, k2, k3, k4, k5⟩ := key
  have hsq : ∀ v : ℤ, IsSquare (v : ZMod K.modulus) ↔ ∃ x : ℤ, (K.modulus : ℤ) ∣ x * x - v := fun v => by
    constructor
    · rintro ⟨x, hx⟩
      refine ⟨x.val, ?_⟩
      rw [← ZMod.intCast_zmod_eq_zero_iff_dvd]
      push_cast
      rw [ZMod.natCast_zmod_val, hx, sub_self]
    · rintro ⟨x, hx⟩
      rw [← ZMod.intCast_zmod_eq_zero_iff_dvd] at hx
      push_cast at hx
      exact ⟨x, (sub_eq_zero.1 hx).symm⟩
  refine ⟨k1, k2, k3, fun v v0 v1 => ⟨fun h => ?_, fun h => ?_⟩⟩
  · have := k4 (v : ZMod K.modulus) (fun hc0 => by
      rw [ZMod.intCast_zmod_eq_zero_iff_dvd] at hc0
      exact absurd (Int.le_of_dvd v0 hc0) (by omega)) ((hsq v).2 h)
    rwa [hval v v0.le v1] at this
  · have := k5 (v : ZMod K.modulus) (fun hs => h ((hsq v).1 hs))
    rwa [hval v v0.le v1] at this

/-! ### When there is no linear relation -/

theorem no_relation_one (hl : l ∈ halfPeriod K) {e : MRG K.order} (hr : InRange K.modulus e) (hu : Uses e l) (hz : NonZero e) {g : ℤ}
    (hg : ∀ k, (K.modulus : ℤ) ∣ g * nth (call K.modulus) e k) : (K.modulus : ℤ) ∣ g := by
  obtain ⟨-, -, k3, -⟩ := frequency hl hr hu hz _ fun v => rfl
  have hpos : 0 < K.modulus ^ (K.order - 1) := pow_pos (by have := two_lt K; omega) _
  have : ∃ k, nth (call K.modulus) e k = 1 ∨ nth (call K.modulus) e k = K.modulus - 1 := by
    by_contra hno
    push Not at hno
    rw [Finset.card_eq_zero.2 (Finset.filter_eq_empty_iff.2 fun k _ => (hno k).1), Finset.card_eq_zero.2 (Finset.filter_eq_empty_iff.2 fun k _ => (hno k).2)] at k3
    omega
  obtain ⟨k, h | h⟩ := this
  · have := hg k
    rwa [h, mul_one] at this
  · have := hg k
    rw [h, mul_sub, mul_one] at this
    exact (dvd_sub_right (Dvd.intro_left g rfl)).1 this

theorem no_relation_pair (hl : l ∈ halfPeriod K) (e e' : {e : MRG K.order // InRange K.modulus e}) (hu : Uses e.1 l) (hz : NonZero e.1) (hu' : Uses e'.1 l)
    (hp : ¬ ∃ g : ℤ, ∀ i, (K.modulus : ℤ) ∣ e'.1.r i - g * e.1.r i) (g : Fin 2 → ℤ)
    (hg : ∀ k, (K.modulus : ℤ) ∣ ∑ i, g i * nth (call K.modulus) (![e, e'] i).1 k) (i : Fin 2) : (K.modulus : ℤ) ∣ g i := by
  rw [← cast_prop] at hp
  have hc := half_cyclic hl e.2 hz
  have hunit : IsUnit (comp K.modulus (params l : Fin K.order → Int)) := by simpa using hc.unit.neg
  have hrel : ∀ k, (comp K.modulus (params l : Fin K.order → Int) ^ (k + 1) *ᵥ
      ((g 0 : ZMod K.modulus) • castV K.modulus e.1.r + (g 1 : ZMod K.modulus) • castV K.modulus e'.1.r)) 0 = 0 := fun k => by
    have := hg k
    rw [← ZMod.intCast_zmod_eq_zero_iff_dvd, Fin.sum_univ_two] at this
    rw [mulVec_add, mulVec_smul, mulVec_smul, Pi.add_apply, Pi.smul_apply, Pi.smul_apply, ← nth_cast e.2 hu, ← nth_cast e'.2 hu', ← this]
    push_cast
    rfl
  have hy : (g 0 : ZMod K.modulus) • castV K.modulus e.1.r + (g 1 : ZMod K.modulus) • castV K.modulus e'.1.r = 0 := by
    have h0 : comp K.modulus (params l : Fin K.order → Int) *ᵥ ((g 0 : ZMod K.modulus) • castV K.modulus e.1.r + (g 1 : ZMod K.modulus) • castV K.modulus e'.1.r) = 0 := by
      refine observable hunit fun j => ?_
      rw [mulVec_mulVec, ← pow_succ]
      exact hrel j
    by_contra hne
    exact mulVec_ne hunit hne h0
  have h1 : (g 1 : ZMod K.modulus) = 0 := by
    by_contra h1
    refine hp ⟨-(g 0 : ZMod K.modulus) / (g 1 : ZMod K.modulus), ?_⟩
    have : (g 1 : ZMod K.modulus) • castV K.modulus e'.1.r = -((g 0 : ZMod K.modulus) • castV K.modulus e.1.r) := by
      rw [eq_neg_iff_add_eq_zero, add_comm]; exact hy
    rw [div_eq_inv_mul, mul_smul, neg_smul, ← this, smul_smul, inv_mul_cancel₀ h1, one_smul]
  rw [h1, zero_smul, add_zero] at hy
  have h0 : (g 0 : ZMod K.modulus) = 0 := (smul_eq_zero.1 hy).resolve_right hc.ne
  revert i
  rw [Fin.forall_fin_two]
  exact ⟨(ZMod.intCast_zmod_eq_zero_iff_dvd _ _).1 h0, (ZMod.intCast_zmod_eq_zero_iff_dvd _ _).1 h1⟩

/-- Successive numbers. -/
theorem no_relation_successive (hl : l ∈ halfPeriod K) {e : MRG K.order} (hr : InRange K.modulus e) (hu : Uses e l) (hz : NonZero e) {d : ℕ} (hd : d ≤ K.order)
    (g : Fin d → ℤ) (hg : ∀ k, (K.modulus : ℤ) ∣ ∑ i, g i * nth (call K.modulus) e (k + i.val)) (i : Fin d) : (K.modulus : ℤ) ∣ g i := by
  have hc := half_cyclic hl hr hz
  have hunit : IsUnit (comp K.modulus (params l : Fin K.order → Int)) := by simpa using hc.unit.neg
  let g' : Fin K.order → ZMod K.modulus := fun j => if hj : j.val < d then (g ⟨j.val, hj⟩ : ZMod K.modulus) else 0
  have hpol : pol K.modulus (params l : Fin K.order → Int) g' = ∑ i : Fin d, (g i : ZMod K.modulus) • comp K.modulus (params l : Fin K.order → Int) ^ i.val := by
    rw [pol, ← Finset.sum_subset (Finset.subset_univ (Finset.univ.image (Fin.castLE hd)))]
    · rw [Finset.sum_image fun a _ b _ hab => Fin.castLE_injective hd hab]
      refine Finset.sum_congr rfl fun j _ => ?_
      simp only [g', Fin.val_castLE, j.isLt, dif_pos]
    · intro j _ hj
      have : ¬ j.val < d := fun h => hj (Finset.mem_image.2 ⟨⟨j.val, h⟩, Finset.mem_univ _, Fin.ext rfl⟩)
      simp only [g', dif_neg this, zero_smul]
  have hkill : pol K.modulus (params l : Fin K.order → Int) g' *ᵥ (comp K.modulus (params l : Fin K.order → Int) *ᵥ castV K.modulus e.r) = 0 := by
    refine observable hunit fun k => ?_
    have := hg k
    rw [← ZMod.intCast_zmod_eq_zero_iff_dvd] at this
    push_cast at this
    rw [hpol, Matrix.sum_mulVec, Matrix.mulVec_sum, Finset.sum_apply, ← this]
    refine Finset.sum_congr rfl fun j _ => ?_
    rw [nth_cast hr hu, smul_mulVec, mulVec_smul, Pi.smul_apply, smul_eq_mul, mulVec_mulVec, mulVec_mulVec, ← pow_add, ← pow_succ]
  have hzero : g' = 0 := by
    by_contra hne
    obtain ⟨hnn, -, h2⟩ := halfPeriod_order K l hl
    have hN : K.modulus ^ K.order - 1 < 2 ^ 160 := lt_trans (bound_order (K := K)).1 (by norm_num)
    exact mulVec_ne (pol_isUnit (NeZero.pos _) hnn hN h2 g' hne) (mulVec_ne hunit hc.ne) hkill
  have := congrFun hzero ⟨i.val, by omega⟩
  simp only [g', i.isLt, dif_pos, Pi.zero_apply] at this
  exact (ZMod.intCast_zmod_eq_zero_iff_dvd _ _).1 this

/-! ### The yarn engines -/

theorem yarn_nearly {d T : ℕ} {η : ℝ} (es : Fin d → {e : MRG K.order // InRange K.modulus e}) (h : StreamsNearly (mrgGen K) es T η) :
    StreamsNearly (yarnGen K) es T η := by
  classical
  have hg : documentedBase K = K.gen := by cases K <;> rfl
  have hm : documentedModulus K = K.modulus := by cases K <;> rfl
  have h2 := two_lt K
  have hm0 : (0 : ℤ) < K.modulus := by omega
  let π : ℕ → ℕ := fun x => (if (x : ℤ) = 0 then 0 else (K.gen : Int) ^ (x : ℤ).toNat % K.modulus).toNat
  have hval : ∀ i k, nth (yarnGen K).call (es i) k = π (nth (mrgGen K).call (es i) k) := fun i k => by
    have h := (C30_yarn_output K (es i).1 (es i).2 k).1
    have h0 := (C26_mrg_range K (es i).1 (es i).2 k).1
    rw [hg, hm] at h
    rw [yarnGen, sub_nth]
    simp only [π]
    rw [mrgGen, sub_nth, h, Int.toNat_of_nonneg h0]
    rfl
  have hnn : ∀ x : ℕ, 0 ≤ (if (x : ℤ) = 0 then 0 else (K.gen : Int) ^ (x : ℤ).toNat % K.modulus) ∧
      (if (x : ℤ) = 0 then 0 else (K.gen : Int) ^ (x : ℤ).toNat % K.modulus) < K.modulus := fun x => by
    split_ifs
    · exact ⟨le_rfl, hm0⟩
    · exact ⟨Int.emod_nonneg _ hm0.ne', Int.emod_lt_of_pos _ hm0⟩
  have hinj : ∀ x y : ℕ, x < K.modulus → y < K.modulus → π x = π y → x = y := fun x y hx hy h => by
    have h' := (Int.toNat_of_nonneg (hnn _).1).symm.trans ((congrArg Nat.cast h).trans (Int.toNat_of_nonneg (hnn _).1))
    obtain ⟨z, -, hz⟩ := C30_yarn_permutation K _ (hnn y).1 (hnn y).2
    have ha := hz (x : ℤ) ⟨⟨by omega, by omega⟩, h'⟩
    have hb := hz (y : ℤ) ⟨⟨by omega, by omega⟩, rfl⟩
    omega
  have hlt : ∀ x, π x < K.modulus := fun x => by have := hnn x; simp only [π]; omega
  have hsurj : ∀ y, y < K.modulus → ∃ x, x < K.modulus ∧ π x = y := fun y hy => by
    have := Finset.surjOn_of_injOn_of_card_le (s := Finset.range K.modulus) (t := Finset.range K.modulus) π
      (fun x _ => Finset.mem_coe.2 (Finset.mem_range.2 (hlt x)))
      (fun a ha b hb e => hinj a b (Finset.mem_range.1 (Finset.mem_coe.1 ha)) (Finset.mem_range.1 (Finset.mem_coe.1 hb)) e) le_rfl (Finset.mem_coe.2 (Finset.mem_range.2 hy))
    obtain ⟨x, hx, e⟩ := this
    exact ⟨x, Finset.mem_range.1 (Finset.mem_coe.1 hx), e⟩
  refine ⟨h.1, fun W hW => ?_⟩
  have hW' : ∀ v ∈ W, ∀ i, v i < K.modulus := fun v hv i => by
    have : v i ≤ K.modulus - 1 := (hW v hv i).2
    omega
  let W' : Finset (Fin d → ℕ) := (Fintype.piFinset fun _ => Finset.range K.modulus).filter fun v => (fun i => π (v i)) ∈ W
  have hmem : ∀ v, v ∈ W' ↔ (∀ i, v i < K.modulus) ∧ (fun i => π (v i)) ∈ W := fun v => by
    simp only [W', Finset.mem_filter, Fintype.mem_piFinset, Finset.mem_range]
  have hcard : W'.card = W.card := by
    refine Finset.card_bij (fun v _ i => π (v i)) (fun v hv => ((hmem v).1 hv).2) (fun v hv w hw e => funext fun i => ?_) fun w hw => ?_
    · exact hinj _ _ (((hmem v).1 hv).1 i) (((hmem w).1 hw).1 i) (congrFun e i)
    · choose x hx e using fun i => hsurj (w i) (hW' w hw i)
      have : (fun i => π (x i)) = w := funext e
      exact ⟨x, (hmem x).2 ⟨hx, by rw [this]; exact hw⟩, this⟩
  have := h.2 W' fun v hv i => ⟨Nat.zero_le _, by
    have := ((hmem v).1 hv).1 i
    show v i ≤ K.modulus - 1
    omega⟩
  rw [hcard] at this
  refine le_trans (le_of_eq ?_) this
  congr! 6 with k _
  rw [hmem]
  simp only [hval]
  exact ⟨fun hk => ⟨fun i => gen_lt _ _, hk⟩, fun hk => hk.2⟩

/-! ### Leapfrogging -/

theorem half_nonZero (hl : l ∈ halfPeriod K) {e : MRG K.order} (hr : InRange K.modulus e) (hu : Uses e l) (hz : NonZero e) (L : ℕ) :
    NonZero (afterCalls (call K.modulus) L e) := by
  have hc := half_cyclic hl hr hz
  have hunit : IsUnit (comp K.modulus (params l : Fin K.order → Int)) := by simpa using hc.unit.neg
  by_contra h
  simp only [NonZero] at h
  push Not at h
  have h1 := castV_after hr hu L
  have h0 : castV K.modulus (afterCalls (call K.modulus) L e).r = 0 := funext fun i => by
    show (((afterCalls (call K.modulus) L e).r i : Int) : ZMod K.modulus) = 0
    rw [h i, Int.cast_zero]
  rw [h0] at h1
  exact mulVec_ne (hunit.pow L) hc.ne h1.symm

/-- The state after L calls is not a multiple of the state, unless L is a multiple of (mⁿ - 1)/(m - 1). -/
theorem half_lag (hl : l ∈ halfPeriod K) {e : MRG K.order} (hr : InRange K.modulus e) (hu : Uses e l) (hz : NonZero e) {L : ℕ}
    (hL : ¬ (K.modulus ^ K.order - 1) / (K.modulus - 1) ∣ L) :
    ¬ ∃ g : ℤ, ∀ i, (K.modulus : ℤ) ∣ (afterCalls (call K.modulus) L e).r i - g * e.r i := by
  rw [← cast_prop]
  rintro ⟨g, hg⟩
  have hc := half_cyclic hl hr hz
  rw [castV_after hr hu] at hg
  refine hL (hc.ratio_dvd (g := (-1) ^ L * g) (hc.scalar_of ?_))
  rw [neg_pow, ← mulVec_mulVec, hg, mul_smul]
  rcases Nat.even_or_odd L with hL2 | hL2
  · rw [hL2.neg_one_pow, hL2.neg_one_pow, one_mulVec, one_smul]
  · rw [hL2.neg_one_pow, hL2.neg_one_pow, neg_mulVec, one_mulVec, neg_one_smul]

theorem half_splittable (hl : l ∈ halfPeriod K) {e : MRG K.order} (he : InRange K.modulus e) (hu : Uses e l) : Splittable K e :=
  ⟨he, fun _ => ⟨l, by
    cases K <;> simp only [halfPeriod, Kind.paramLists, List.mem_cons, List.not_mem_nil, or_false] at hl ⊢ <;> tauto, hu⟩⟩

/-- The period is a product of two primes above 10⁹. -/
theorem half_coprime (hl : l ∈ halfPeriod K) {s : ℕ} (h0 : 0 < s) (h1 : s ≤ 1000000000) : Nat.Coprime s ((K.modulus ^ K.order - 1) / 2) := by
  have key : ∀ q : ℕ, q.Prime → 1000000000 < q → Nat.Coprime s q := fun q hq h => (Nat.Coprime.symm ((Nat.Prime.coprime_iff_not_dvd hq).2 fun hd => by
    have := Nat.le_of_dvd h0 hd
    omega))
  cases K <;> first | exact absurd hl List.not_mem_nil | skip
  · rw [show (Kind.modulus .k3s ^ Kind.order .k3s - 1) / 2 = 1073731289 * 4611595530352793821 by decide +kernel]
    exact Nat.Coprime.mul_right (key _ prime_1073731289 (by norm_num)) (key _ prime_4611595530352793821 (by norm_num))
  · rw [show (Kind.modulus .k5s ^ Kind.order .k5s - 1) / 2 = 1073730503 * 21266751054232131901454750443841176801 by decide +kernel]
    exact Nat.Coprime.mul_right (key _ prime_1073730503 (by norm_num)) (key _ prime_21266751054232131901454750443841176801 (by norm_num))

open Classical in
theorem leapfrog_nearly {σ : Type} {G : Gen σ} {e : σ} {d s T : ℕ} {E : Fin d → σ} {o : Fin d → ℕ} {η : ℝ}
    (h : StreamsNearly G (fun i => afterCalls G.call (o i) e) T η) (hp : ∀ k, nth G.call e (k + T) = nth G.call e k) (hs : Nat.Coprime s T)
    (hl : ∀ i, Leapfrog G.call e (E i) s (o i)) : StreamsNearly G E T η := by
  obtain ⟨hT, hv⟩ := h
  refine ⟨hT, fun W hW => le_trans (le_of_eq ?_) (hv W hW)⟩
  have hmod : ∀ j r, nth G.call e (j % T + r) = nth G.call e (j + r) := fun j r => by
    rw [LeapfrogUniform.nth_mod hp (j % T + r), LeapfrogUniform.nth_mod hp (j + r), Nat.mod_add_mod]
  have hsh : ∀ i k, nth G.call (afterCalls G.call (o i) e) k = nth G.call e (k + o i) := fun i k => by
    rw [nth, nth, afterCalls_add]
  have hinj : Set.InjOn (fun k => (k * s) % T) (Finset.range T : Finset ℕ) := fun i hi j hj hij => by
    rw [Finset.mem_coe, Finset.mem_range] at hi hj
    have h3 : i ≡ j [MOD T] := Nat.ModEq.cancel_right_of_coprime (Nat.coprime_comm.1 hs) hij
    rwa [Nat.ModEq, Nat.mod_eq_of_lt hi, Nat.mod_eq_of_lt hj] at h3
  have hsurj := Finset.surjOn_of_injOn_of_card_le (s := Finset.range T) (t := Finset.range T) (fun k => (k * s) % T)
    (fun k _ => Finset.mem_coe.2 (Finset.mem_range.2 (Nat.mod_lt _ hT))) hinj le_rfl
  have hE : ∀ k, (fun i => nth G.call (afterCalls G.call (o i) e) (k * s % T)) = fun i => nth G.call (E i) k := fun k => funext fun i => by
    rw [hsh, hmod, ← hl]
  congr 4
  refine Finset.card_bij (fun k _ => k * s % T) (fun k hk => ?_) (fun i hi j hj hij => ?_) fun j hj => ?_
  · rw [Finset.mem_filter] at hk ⊢
    exact ⟨Finset.mem_range.2 (Nat.mod_lt _ hT), by rw [hE]; exact hk.2⟩
  · exact hinj (Finset.mem_coe.2 (Finset.mem_filter.1 hi).1) (Finset.mem_coe.2 (Finset.mem_filter.1 hj).1) hij
  · obtain ⟨hj1, hj2⟩ := Finset.mem_filter.1 hj
    obtain ⟨k, hk, e1⟩ := hsurj (Finset.mem_coe.2 hj1)
    simp only at e1
    refine ⟨k, Finset.mem_filter.2 ⟨Finset.mem_coe.1 hk, ?_⟩, e1⟩
    rw [← hE, e1]
    exact hj2

/-! ### The laws of samples -/

open Independence

variable {σ α : Type} {G : Gen σ} {T d : ℕ} {η : ℝ} {S : (τ : Type) → Gen τ → τ → α × τ}

open Classical in
theorem nearly_core (hS : OneCall S) (hG : G.Sound) {es : Fin d → σ} (hT : StreamsNearly G es T η) (A : Fin d → α → Prop) :
    |(((Finset.range T).filter fun k => ∀ i : Fin d, A i (nth (S σ G) (es i) k)).card : ℝ) / T -
      ∏ i, (((Finset.range (G.max - G.min + 1)).filter fun k => A i (nth (S ℕ (counter G.min G.max)) 0 k)).card : ℝ) / (G.max - G.min + 1 : ℕ)| ≤ η := by
  have hr : ∀ i k, G.min ≤ nth G.call (es i) k ∧ nth G.call (es i) k ≤ G.max := fun i k => hG.range _
  have hlt := hG.lt
  let B : Fin d → Finset ℕ := fun i => ((Finset.range (G.max - G.min + 1)).filter fun k => A i (nth (S ℕ (counter G.min G.max)) 0 k)).image fun k => G.min + k
  have hB : ∀ i v, v ∈ B i ↔ G.min ≤ v ∧ v ≤ G.max ∧ A i (nth (S ℕ (counter G.min G.max)) 0 (v - G.min)) := fun i v => by
    simp only [B, Finset.mem_image, Finset.mem_filter, Finset.mem_range]
    constructor
    · rintro ⟨k, ⟨h1, h2⟩, rfl⟩
      exact ⟨by omega, by omega, by rwa [Nat.add_sub_cancel_left]⟩
    · rintro ⟨h1, h2, h3⟩
      exact ⟨v - G.min, ⟨by omega, h3⟩, by omega⟩
  have h := hT.2 (Fintype.piFinset B) fun v hv i => by
    rw [Fintype.mem_piFinset] at hv
    exact ⟨((hB i _).1 (hv i)).1, ((hB i _).1 (hv i)).2.1⟩
  refine le_trans (le_of_eq ?_) h
  have e1 : ((Fintype.piFinset B).card : ℝ) / ((G.max - G.min + 1 : ℕ) : ℝ) ^ d =
      ∏ i, (((Finset.range (G.max - G.min + 1)).filter fun k => A i (nth (S ℕ (counter G.min G.max)) 0 k)).card : ℝ) / (G.max - G.min + 1 : ℕ) := by
    rw [Fintype.card_piFinset, Finset.prod_div_distrib, Finset.prod_const, Finset.card_univ, Fintype.card_fin]
    push_cast
    congr 1
    refine Finset.prod_congr rfl fun i _ => ?_
    rw [Finset.card_image_of_injective _ fun a b hab => Nat.add_left_cancel hab]
  rw [e1]
  congr 5
  refine Finset.filter_congr fun k _ => ?_
  rw [Fintype.mem_piFinset]
  refine forall_congr' fun i => ?_
  rw [hB, oneCall_nth hS hG, counter_nth hS hG]
  exact ⟨fun h => ⟨(hr i k).1, (hr i k).2, h⟩, fun h => h.2.2⟩

open Classical in
theorem nearly_general (hS : OneCall S) (hG : G.Sound) {es : Fin d → σ} (hT : StreamsNearly G es T η) (A : Fin d → α → Prop) (F : Fin d → ℝ)
    (h01 : ∀ i, 0 ≤ F i ∧ F i ≤ 1) {δ : ℝ}
    (h : ∀ i, |(((Finset.range (G.max - G.min + 1)).filter fun k => A i (nth (S ℕ (counter G.min G.max)) 0 k)).card : ℝ) / (G.max - G.min + 1 : ℕ) - F i| ≤ δ) :
    |(((Finset.range T).filter fun k => ∀ i : Fin d, A i (nth (S σ G) (es i) k)).card : ℝ) / T - ∏ i, F i| ≤ d * δ + η := by
  have h1 := nearly_core hS hG hT A
  have h2 := prod_close Finset.univ (fun i : Fin d => (((Finset.range (G.max - G.min + 1)).filter fun k =>
      A i (nth (S ℕ (counter G.min G.max)) 0 k)).card : ℝ) / (G.max - G.min + 1 : ℕ)) F (fun i => frac01 _ _) h01 h
  rw [Finset.card_univ, Fintype.card_fin] at h2
  rw [abs_le] at h1 h2 ⊢
  exact ⟨by linarith [h1.1, h2.1], by linarith [h1.2, h2.2]⟩

theorem nearly_bound (hG : G.Sound) {ε : ℝ} : (d : ℝ) * (ε + 13 / (G.max - G.min : ℝ) + 1 / ((G.max - G.min + 1 : ℕ) : ℝ)) + η ≤
    d * (ε + 14 / (G.max - G.min : ℝ)) + η := by
  have := bound_le (d := d) (T := 1) hG (ε := ε)
  linarith

/-- The joint law of numbers, from the law over the numbers of the range. -/
theorem nearly_of {S : (τ : Type) → Gen τ → τ → XR × τ} (hS : OneCall S) (hG : G.Sound) {es : Fin d → σ} (hT : StreamsNearly G es T η) {F : ℝ → ℝ}
    (h01 : ∀ t, 0 ≤ F t ∧ F t ≤ 1) {ε : ℝ}
    (h : Equidistributed (counter G.min G.max) 0 (G.max - G.min + 1) →
      FollowsUpTo (S ℕ (counter G.min G.max)) 0 (G.max - G.min + 1) F (ε + 13 / (G.max - G.min : ℝ) + 1 / ((G.max - G.min + 1 : ℕ) : ℝ))) :
    StreamsFollow (S σ G) es T F (d * (ε + 14 / (G.max - G.min : ℝ)) + η) := by
  have hF := h counter_equi
  refine ⟨fun i k => ?_, fun t => ?_⟩
  · have hr : G.min ≤ nth G.call (es i) k ∧ nth G.call (es i) k ≤ G.max := hG.range _
    rw [oneCall_nth hS hG, ← counter_nth hS hG]
    exact hF.number _ (by omega)
  · exact (nearly_general hS hG hT (fun i x => x ≤ fin (t i)) (fun i => F (t i)) (fun i => h01 _) fun i => hF.law (t i)).trans (nearly_bound hG)

/-- The joint law of integers. -/
theorem integers_nearly_of {S : (τ : Type) → Gen τ → τ → Option ℤ × τ} (hS : OneCall S) (hG : G.Sound) {es : Fin d → σ} (hT : StreamsNearly G es T η) {lo : ℤ} {p : ℤ → ℝ}
    (hp : ∀ x, 0 ≤ p x) (hp1 : ∀ t, upTo lo p t ≤ 1) {ε : ℝ}
    (h : Equidistributed (counter G.min G.max) 0 (G.max - G.min + 1) →
      IntegersFollow (S ℕ (counter G.min G.max)) 0 (G.max - G.min + 1) lo p (ε + 13 / (G.max - G.min : ℝ) + 1 / ((G.max - G.min + 1 : ℕ) : ℝ))) :
    IntegerStreams (S σ G) es T lo p (d * (ε + 14 / (G.max - G.min : ℝ)) + η) := by
  have hF := h counter_equi
  have hb := nearly_bound (d := d) (η := η) hG (ε := ε)
  have hη : 0 ≤ η := le_trans (abs_nonneg _) (hT.2 ∅ fun v hv => absurd hv (Finset.notMem_empty v))
  refine ⟨fun i k => ?_, fun t => ?_, fun v hv => ?_⟩
  · have hr : G.min ≤ nth G.call (es i) k ∧ nth G.call (es i) k ≤ G.max := hG.range _
    rw [oneCall_nth hS hG, ← counter_nth hS hG]
    exact hF.defined _ (by omega)
  · refine le_trans ?_ hb
    refine le_trans (le_of_eq ?_) (nearly_general hS hG hT (fun i x => ∃ n, x = some n ∧ n ≤ t i) (fun i => upTo lo p (t i))
      (fun i => ⟨upTo_nonneg hp _, hp1 _⟩) fun i => le_trans (le_of_eq ?_) (hF.atMost (t i)))
    · congr!
    · congr!
  · refine le_trans ?_ (mul_le_mul_of_nonneg_left hb (by norm_num : (0 : ℝ) ≤ 2))
    have h1 : ∀ i, p (v i) ≤ 1 := fun i => le_trans (Finset.single_le_sum (f := p) (fun x _ => hp x) (Finset.mem_Icc.2 ⟨hv i, le_rfl⟩)) (hp1 (v i))
    refine le_trans (le_trans (le_of_eq ?_) (nearly_general hS hG hT (fun i x => x = some (v i)) (fun i => p (v i)) (fun i => ⟨hp _, h1 i⟩)
      fun i => le_trans (le_of_eq ?_) (hF.exactly (v i) (hv i)))) ?_
    · congr!
    · congr!
    · linarith

end Trng.HalfPeriod
