import Verif.Proofs.Independence
import Verif.Props.LeapfrogUniform
import Mathlib.GroupTheory.Index
import Mathlib.LinearAlgebra.Dual.Lemmas
import Mathlib.FieldTheory.Finite.Basic

/-! Linear relations between the streams of a multiple recursive generator. -/
namespace Trng.Streams
set_option linter.unusedSectionVars false
open Spec Trng.Uniform Matrix

/-! ### Linear algebra -/

theorem fibre_card {V W : Type} [AddCommGroup V] [Fintype V] [AddCommGroup W] [Fintype W] [DecidableEq W] (f : V →+ W) (hf : Function.Surjective f) (y : W) :
    (Finset.univ.filter fun v => f v = y).card * Fintype.card W = Fintype.card V := by
  have h := Finset.card_eq_sum_card_fiberwise (s := (Finset.univ : Finset V)) (t := (Finset.univ : Finset W)) (f := f) (fun _ _ => Finset.mem_coe.2 (Finset.mem_univ _))
  rw [← Finset.card_univ (α := V), h, ← Finset.card_univ, Finset.sum_congr rfl fun b _ => AddMonoidHom.card_fiber_eq_of_mem_range f (hf b) (hf y),
    Finset.sum_const, smul_eq_mul, mul_comm]

variable {p n d : ℕ} [Fact p.Prime] [NeZero n] {C : Matrix (Fin n) (Fin n) (ZMod p)} {v0 : Fin n → ZMod p}

/-- The first components of `C ^ L i` applied to a vector. -/
def proj (C : Matrix (Fin n) (Fin n) (ZMod p)) (L : Fin d → ℕ) : (Fin n → ZMod p) →ₗ[ZMod p] (Fin d → ZMod p) :=
  LinearMap.pi fun i => (LinearMap.proj 0).comp (Matrix.mulVecLin (C ^ L i))

theorem proj_apply (L : Fin d → ℕ) (w : Fin n → ZMod p) (i : Fin d) : proj C L w i = (C ^ L i *ᵥ w) 0 := rfl

theorem functional (f : (Fin d → ZMod p) →ₗ[ZMod p] ZMod p) (w : Fin d → ZMod p) : f w = ∑ i, f (Pi.single i 1) * w i := by
  conv_lhs => rw [← LinearMap.sum_single_apply (fun _ => ZMod p) w, map_sum]
  refine Finset.sum_congr rfl fun i _ => ?_
  rw [show Pi.single i (w i) = w i • (Pi.single i (1 : ZMod p) : Fin d → ZMod p) by
    ext j; simp [Pi.single_apply], map_smul, smul_eq_mul, mul_comm]

theorem proj_surjective {L : Fin d → ℕ} (hno : ∀ g : Fin d → ZMod p, (∀ w, ∑ i, g i * (C ^ L i *ᵥ w) 0 = 0) → g = 0) :
    Function.Surjective (proj C L) := by
  rw [← LinearMap.range_eq_top]
  by_contra h
  obtain ⟨f, hf, hk⟩ := Submodule.exists_le_ker_of_lt_top _ (lt_top_iff_ne_top.2 h)
  have : (fun i => f (Pi.single i 1)) = 0 := by
    refine hno _ fun w => ?_
    have := hk (LinearMap.mem_range_self (proj C L) w)
    rw [LinearMap.mem_ker, functional] at this
    exact this
  apply hf
  ext w
  have h2 := congrFun this w
  simpa using h2

/-- The nonzero vectors are the powers of `C` applied to `v0`. -/
structure Cyclic (C : Matrix (Fin n) (Fin n) (ZMod p)) (v0 : Fin n → ZMod p) : Prop where
  ne : v0 ≠ 0
  order : orderOf C = p ^ n - 1
  reach : ∀ w, w ≠ 0 → ∃ t, t < p ^ n - 1 ∧ C ^ t *ᵥ v0 = w

theorem period_pos : 1 < p ^ n - 1 + 1 := by
  have := (Fact.out : p.Prime).one_lt
  have h : p ^ 1 ≤ p ^ n := Nat.pow_le_pow_right (by omega) (Nat.one_le_iff_ne_zero.2 (NeZero.ne n))
  rw [pow_one] at h
  omega

theorem Cyclic.pow_period (h : Cyclic C v0) : C ^ (p ^ n - 1) = 1 := by rw [← h.order]; exact pow_orderOf_eq_one C

theorem Cyclic.unit (h : Cyclic C v0) : IsUnit C :=
  IsUnit.of_pow_eq_one h.pow_period (by have := period_pos (p := p) (n := n); omega)

theorem mulVec_ne {M : Matrix (Fin n) (Fin n) (ZMod p)} (hM : IsUnit M) {w : Fin n → ZMod p} (hw : w ≠ 0) : M *ᵥ w ≠ 0 := by
  obtain ⟨u, rfl⟩ := hM
  intro hc
  apply hw
  have : (↑u⁻¹ : Matrix (Fin n) (Fin n) (ZMod p)) *ᵥ (u.val *ᵥ w) = w := by rw [mulVec_mulVec, Units.inv_mul, one_mulVec]
  rw [← this, hc, mulVec_zero]

theorem Cyclic.shift (h : Cyclic C v0) (L : ℕ) : Cyclic C (C ^ L *ᵥ v0) := by
  refine ⟨mulVec_ne (h.unit.pow L) h.ne, h.order, fun w hw => ?_⟩
  obtain ⟨u, hu⟩ := h.unit.pow L
  have hw' : (↑u⁻¹ : Matrix (Fin n) (Fin n) (ZMod p)) *ᵥ w ≠ 0 := mulVec_ne (Units.isUnit _) hw
  obtain ⟨t, ht, e⟩ := h.reach _ hw'
  refine ⟨t, ht, ?_⟩
  rw [mulVec_mulVec, ← pow_add, add_comm, pow_add, ← mulVec_mulVec, e, ← hu, mulVec_mulVec, Units.mul_inv, one_mulVec]

theorem Cyclic.inj (h : Cyclic C v0) : Set.InjOn (fun k : ℕ => C ^ k *ᵥ v0) (Finset.range (p ^ n - 1) : Finset ℕ) := by
  refine Finset.injOn_of_surjOn_of_card_le (t := Finset.univ.erase (0 : Fin n → ZMod p)) _ (fun k _ => ?_) (fun w hw => ?_) ?_
  · rw [Finset.coe_erase]; exact ⟨Finset.mem_coe.2 (Finset.mem_univ _), by simpa using mulVec_ne (h.unit.pow k) h.ne⟩
  · rw [Finset.coe_erase] at hw
    obtain ⟨t, ht, e⟩ := h.reach w (by simpa using hw.2)
    exact ⟨t, by simpa using ht, e⟩
  · rw [Finset.card_range, Finset.card_erase_of_mem (Finset.mem_univ _), Finset.card_univ, Fintype.card_fun, ZMod.card, Fintype.card_fin]

/-- Without a linear relation between the streams every tuple occurs equally often. -/
theorem Cyclic.count (h : Cyclic C v0) {L : Fin d → ℕ} (hno : ∀ g : Fin d → ZMod p, (∀ w, ∑ i, g i * (C ^ L i *ᵥ w) 0 = 0) → g = 0) :
    ∃ c, c * p ^ d = p ^ n ∧ ∀ v : Fin d → ZMod p, ((Finset.range (p ^ n - 1)).filter fun k => ∀ i, (C ^ (k + L i) *ᵥ v0) 0 = v i).card ≤ c := by
  have hs := proj_surjective hno
  have hf := fun v => fibre_card (proj C L).toAddMonoidHom hs v
  simp only [Fintype.card_fun, ZMod.card, Fintype.card_fin] at hf
  refine ⟨_, hf 0, fun v => ?_⟩
  have hp : 0 < p ^ d := pow_pos (Fact.out : p.Prime).pos _
  have : (Finset.univ.filter fun w => (proj C L).toAddMonoidHom w = 0).card = (Finset.univ.filter fun w => (proj C L).toAddMonoidHom w = v).card :=
    Nat.eq_of_mul_eq_mul_right hp ((hf 0).trans (hf v).symm)
  rw [this]
  refine Finset.card_le_card_of_injOn (fun k => C ^ k *ᵥ v0) (fun k hk => ?_) fun i hi j hj hij => ?_
  · rw [Finset.mem_coe, Finset.mem_filter] at hk ⊢
    refine ⟨Finset.mem_univ _, ?_⟩
    funext i
    show (C ^ L i *ᵥ (C ^ k *ᵥ v0)) 0 = v i
    rw [mulVec_mulVec, ← pow_add, add_comm]
    exact hk.2 i
  · rw [Finset.mem_coe, Finset.mem_filter] at hi hj
    exact h.inj (Finset.mem_coe.2 hi.1) (Finset.mem_coe.2 hj.1) hij

/-- A relation between the streams is a relation between all states. -/
theorem Cyclic.relation (h : Cyclic C v0) {L : Fin d → ℕ} {g : Fin d → ZMod p} (hg : ∀ k, ∑ i, g i * (C ^ (k + L i) *ᵥ v0) 0 = 0) (w : Fin n → ZMod p) :
    ∑ i, g i * (C ^ L i *ᵥ w) 0 = 0 := by
  by_cases hw : w = 0
  · subst hw; simp
  · obtain ⟨t, -, e⟩ := h.reach w hw
    rw [← hg t]
    refine Finset.sum_congr rfl fun i _ => ?_
    rw [add_comm, pow_add, ← mulVec_mulVec, e]

/-- A vector of a relation has fewer values. -/
theorem hyperplane {g : Fin d → ZMod p} (hg : g ≠ 0) : (Finset.univ.filter fun v : Fin d → ZMod p => ∑ i, g i * v i = 0).card * p = p ^ d := by
  obtain ⟨i0, hi⟩ := Function.ne_iff.1 hg
  let f : (Fin d → ZMod p) →ₗ[ZMod p] ZMod p := ∑ i, g i • LinearMap.proj i
  have hf : ∀ v, f v = ∑ i, g i * v i := fun v => by simp [f, LinearMap.sum_apply]
  have hs : Function.Surjective f := fun y => ⟨Pi.single i0 ((g i0)⁻¹ * y), by
    rw [hf, Finset.sum_eq_single i0]
    · rw [Pi.single_eq_same, mul_inv_cancel_left₀ hi]
    · intro j _ hj; rw [Pi.single_eq_of_ne hj, mul_zero]
    · intro h; exact absurd (Finset.mem_univ _) h⟩
  have := fibre_card f.toAddMonoidHom hs 0
  simp only [Fintype.card_fun, ZMod.card, Fintype.card_fin] at this
  rw [← this]
  congr 2
  refine Finset.filter_congr fun v _ => ?_
  rw [← hf]; rfl

/-! ### Two streams -/

/-- A stream that is proportional at the start is proportional for ever. -/
theorem Cyclic.scalar_of (h : Cyclic C v0) {L : ℕ} {g : ZMod p} (hg : C ^ L *ᵥ v0 = g • v0) : C ^ L = g • (1 : Matrix (Fin n) (Fin n) (ZMod p)) := by
  refine Matrix.ext_of_mulVec_single fun i => ?_
  generalize (Pi.single i 1 : Fin n → ZMod p) = w
  by_cases hw : w = 0
  · subst hw; simp
  · obtain ⟨t, -, e⟩ := h.reach w hw
    rw [← e, mulVec_mulVec, ← pow_add, add_comm, pow_add, ← mulVec_mulVec, hg, mulVec_smul, smul_mulVec, one_mulVec]

theorem Cyclic.dvd_of_scalar (h : Cyclic C v0) {L : ℕ} {g : ZMod p} (hg : C ^ L = g • (1 : Matrix (Fin n) (Fin n) (ZMod p))) :
    p ^ n - 1 ∣ L * (p - 1) := by
  have hg0 : g ≠ 0 := by
    rintro rfl
    rw [zero_smul] at hg
    have := h.unit.pow L
    rw [hg] at this
    exact not_isUnit_zero this
  rw [← h.order]
  apply orderOf_dvd_of_pow_eq_one
  rw [pow_mul, hg, smul_pow, one_pow, ZMod.pow_card_sub_one_eq_one hg0, one_smul]

theorem ratio_mul : (p ^ n - 1) / (p - 1) * (p - 1) = p ^ n - 1 := Nat.div_mul_cancel (Nat.sub_one_dvd_pow_sub_one p n)

theorem Cyclic.ratio_dvd (h : Cyclic C v0) {L : ℕ} {g : ZMod p} (hg : C ^ L = g • (1 : Matrix (Fin n) (Fin n) (ZMod p))) :
    (p ^ n - 1) / (p - 1) ∣ L := by
  have := h.dvd_of_scalar hg
  rw [← ratio_mul] at this
  exact Nat.dvd_of_mul_dvd_mul_right (by have := (Fact.out : p.Prime).one_lt; omega) this

/-- `C ^ q` with q = (p^n-1)/(p-1) is a multiple of the identity. -/
theorem Cyclic.scalar_ratio (h : Cyclic C v0) (hp2 : 2 < p) : ∃ g : ZMod p, C ^ ((p ^ n - 1) / (p - 1)) = g • (1 : Matrix (Fin n) (Fin n) (ZMod p)) := by
  have hu : ∀ g : (ZMod p)ˣ, ∃ t, t < p ^ n - 1 ∧ C ^ t = (g : ZMod p) • (1 : Matrix (Fin n) (Fin n) (ZMod p)) := fun g => by
    obtain ⟨t, ht, e⟩ := h.reach ((g : ZMod p) • v0) (by
      rw [Ne, smul_eq_zero]; push Not; exact ⟨g.ne_zero, h.ne⟩)
    exact ⟨t, ht, h.scalar_of e⟩
  choose t ht hC using hu
  have hq : ∀ g, (p ^ n - 1) / (p - 1) ∣ t g := fun g => h.ratio_dvd (hC g)
  generalize hqd : (p ^ n - 1) / (p - 1) = q at hq
  have hT : q * (p - 1) = p ^ n - 1 := by rw [← hqd]; exact ratio_mul
  have hq0 : 0 < q := by
    rcases Nat.eq_zero_or_pos q with h0 | h0
    · subst h0; have := period_pos (p := p) (n := n); omega
    · exact h0
  have hs := Finset.surjOn_of_injOn_of_card_le (s := (Finset.univ : Finset (ZMod p)ˣ)) (t := Finset.range (p - 1)) (fun g => t g / q)
    (fun g _ => by
      rw [Finset.mem_coe, Finset.mem_range, Nat.div_lt_iff_lt_mul hq0, mul_comm, hT]; exact ht g)
    (fun a _ b _ hab => by
      have : t a = t b := by
        rw [← Nat.div_mul_cancel (hq a), ← Nat.div_mul_cancel (hq b)]
        exact congrArg (· * q) hab
      have h2 := hC a
      rw [this, hC b] at h2
      have h3 := congrFun (congrFun h2 0) 0
      simp only [Matrix.smul_apply, Matrix.one_apply_eq, smul_eq_mul, mul_one] at h3
      exact Units.ext h3.symm)
    (by rw [Finset.card_range, Finset.card_univ, ZMod.card_units])
  obtain ⟨g, -, hg⟩ := hs (Finset.mem_coe.2 (Finset.mem_range.2 (show 1 < p - 1 by omega)))
  refine ⟨g, ?_⟩
  have : t g = q := by rw [← Nat.div_mul_cancel (hq g)]; simp only at hg; rw [hg, one_mul]
  rw [← this]; exact hC g

theorem Cyclic.scalar_iff (h : Cyclic C v0) (hp2 : 2 < p) (L : ℕ) :
    (∃ g : ZMod p, C ^ L = g • (1 : Matrix (Fin n) (Fin n) (ZMod p))) ↔ (p ^ n - 1) / (p - 1) ∣ L := by
  refine ⟨fun ⟨g, hg⟩ => h.ratio_dvd hg, ?_⟩
  rintro ⟨u, rfl⟩
  obtain ⟨g, hg⟩ := h.scalar_ratio hp2
  exact ⟨g ^ u, by rw [pow_mul, hg, smul_pow, one_pow]⟩

/-! ### The engines -/

open MRG Props PeriodLaw

theorem cyclic {K : Kind} {l : List Int} (hl : l ∈ fullPeriod K) {e : MRG K.order} (hr : InRange K.modulus e) (hu : Uses e l) (hz : NonZero e) :
    Cyclic (comp K.modulus (params l : Fin K.order → Int)) (castV K.modulus e.r) := by
  have hv := valid_iff.1 hr
  refine ⟨castV_ne_zero hv hz, (fullPeriod_order K l hl).2, fun w hw => ?_⟩
  obtain ⟨t, ht, e1⟩ := exists_state hv hz hl hu w hw
  rw [castV_iterate (isEngineModulus K) (order_le K) hv, uses_eq hu] at e1
  exact ⟨t, ht, e1⟩

theorem nth_cast {K : Kind} {l : List Int} {e : MRG K.order} (hr : InRange K.modulus e) (hu : Uses e l) (k : ℕ) :
    ((nth (call K.modulus) e k : Int) : ZMod K.modulus) = (comp K.modulus (params l : Fin K.order → Int) ^ (k + 1) *ᵥ castV K.modulus e.r) 0 := by
  rw [← uses_eq hu, ← castV_iterate (isEngineModulus K) (order_le K) (valid_iff.1 hr), nth_call]; rfl

theorem gen_cast {K : Kind} (e : {e : MRG K.order // InRange K.modulus e}) (k : ℕ) :
    ((nth (mrgGen K).call e k : ℕ) : ZMod K.modulus) = ((nth (call K.modulus) e.1 k : Int) : ZMod K.modulus) := by
  rw [mrgGen, sub_nth]
  have := (C26_mrg_range K e.1 e.2 k).1
  rw [← Int.cast_natCast, Int.toNat_of_nonneg this]

theorem shift_of {K : Kind} {l : List Int} (hl : l ∈ fullPeriod K) {e e' : MRG K.order} (hr : InRange K.modulus e) (hu : Uses e l) (hz : NonZero e)
    (hr' : InRange K.modulus e') (hz' : NonZero e') :
    ∃ L, castV K.modulus e'.r = comp K.modulus (params l : Fin K.order → Int) ^ L *ᵥ castV K.modulus e.r := by
  obtain ⟨t, -, e1⟩ := (cyclic hl hr hu hz).reach _ (castV_ne_zero (valid_iff.1 hr') hz')
  exact ⟨t, e1.symm⟩

theorem two_lt (K : Kind) : 2 < K.modulus := by have := (modulus_facts K).1; omega

theorem gen_lt {K : Kind} (e : {e : MRG K.order // InRange K.modulus e}) (k : ℕ) : nth (mrgGen K).call e k < K.modulus := by
  have := ((mrg_sound K).range (afterCalls (mrgGen K).call k e)).2
  have h2 := two_lt K
  change nth (mrgGen K).call e k ≤ K.modulus - 1 at this
  omega

/-- Streams are equidistributed unless there is a linear relation between them. -/
theorem streams_iff (K : Kind) {l : List Int} (hl : l ∈ fullPeriod K) {d : ℕ} (es : Fin (d + 1) → {e : MRG K.order // InRange K.modulus e})
    (hu : ∀ i, Uses (es i).1 l) (hz : ∀ i, NonZero (es i).1) :
    StreamsEquidistributed (mrgGen K) es (K.modulus ^ K.order - 1) ↔
      ∀ g : Fin (d + 1) → ℤ, (∀ k, (K.modulus : ℤ) ∣ ∑ i, g i * nth (call K.modulus) (es i).1 k) → ∀ i, (K.modulus : ℤ) ∣ g i := by
  have h2 := two_lt K
  have hT := period_pos (p := K.modulus) (n := K.order)
  have hcyc := (cyclic hl (es 0).2 (hu 0) (hz 0)).shift 1
  choose L hL using fun i => shift_of hl (es 0).2 (hu 0) (hz 0) (es i).2 (hz i)
  have hx : ∀ i k, ((nth (call K.modulus) (es i).1 k : Int) : ZMod K.modulus) = (comp K.modulus (params l : Fin K.order → Int) ^ (k + L i) *ᵥ
      (comp K.modulus (params l : Fin K.order → Int) ^ 1 *ᵥ castV K.modulus (es 0).1.r)) 0 := fun i k => by
    rw [nth_cast (es i).2 (hu i), hL, mulVec_mulVec, mulVec_mulVec, ← pow_add, ← pow_add, add_right_comm]
  have hrel : ∀ g : Fin (d + 1) → ℤ, (∀ k, (K.modulus : ℤ) ∣ ∑ i, g i * nth (call K.modulus) (es i).1 k) ↔
      ∀ k, ∑ i, (g i : ZMod K.modulus) * ((nth (call K.modulus) (es i).1 k : Int) : ZMod K.modulus) = 0 := fun g => by
    refine forall_congr' fun k => ?_
    rw [← ZMod.intCast_zmod_eq_zero_iff_dvd]
    push_cast
    rfl
  constructor
  · rintro ⟨-, c, hc, hv⟩ g hg
    rw [hrel] at hg
    by_contra hne
    push Not at hne
    obtain ⟨i, hi⟩ := hne
    have hg0 : (fun i => (g i : ZMod K.modulus)) ≠ 0 := fun h => hi ((ZMod.intCast_zmod_eq_zero_iff_dvd _ _).1 (congrFun h i))
    have hH := hyperplane hg0
    have h1 := Finset.card_le_mul_card_image_of_maps_to (s := Finset.range (K.modulus ^ K.order - 1))
      (t := Finset.univ.filter fun v : Fin (d + 1) → ZMod K.modulus => ∑ i, (g i : ZMod K.modulus) * v i = 0)
      (f := fun k i => ((nth (mrgGen K).call (es i) k : ℕ) : ZMod K.modulus))
      (fun k _ => by
        rw [Finset.mem_filter]
        refine ⟨Finset.mem_univ _, ?_⟩
        simp only [gen_cast]
        exact hg k) c (fun v _ => by
        refine le_trans (Finset.card_le_card fun k hk => ?_) (hv fun i => (v i).val)
        rw [Finset.mem_filter] at hk ⊢
        refine ⟨hk.1, fun i => ?_⟩
        rw [← congrFun hk.2 i, ZMod.val_natCast, Nat.mod_eq_of_lt (gen_lt _ _)])
    rw [Finset.card_range] at h1
    change c * (K.modulus - 1 - 0 + 1) ^ (d + 1) ≤ _ at hc
    rw [show K.modulus - 1 - 0 + 1 = K.modulus by omega, ← hH] at hc
    generalize (Finset.univ.filter fun v : Fin (d + 1) → ZMod K.modulus => ∑ i, (g i : ZMod K.modulus) * v i = 0).card = H at *
    generalize K.modulus ^ K.order - 1 = T at *
    have h3 : T * K.modulus ≤ c * H * K.modulus := Nat.mul_le_mul_right _ h1
    have h4 : T * 3 ≤ T * K.modulus := Nat.mul_le_mul_left _ h2
    rw [← mul_assoc] at hc
    omega
  · intro hno
    have hno' : ∀ g : Fin (d + 1) → ZMod K.modulus, (∀ w, ∑ i, g i * (comp K.modulus (params l : Fin K.order → Int) ^ L i *ᵥ w) 0 = 0) → g = 0 := fun g hg => by
      funext i
      have := hno (fun i => ((g i).val : ℤ)) ((hrel _).2 fun k => ?_) i
      · rw [← ZMod.intCast_zmod_eq_zero_iff_dvd] at this
        simpa using this
      · rw [← hg (comp K.modulus (params l : Fin K.order → Int) ^ k *ᵥ
          (comp K.modulus (params l : Fin K.order → Int) ^ 1 *ᵥ castV K.modulus (es 0).1.r))]
        refine Finset.sum_congr rfl fun i _ => ?_
        rw [hx, mulVec_mulVec, mulVec_mulVec, mulVec_mulVec, ← pow_add, ← pow_add, ← pow_add]
        rw [Int.cast_natCast, ZMod.natCast_zmod_val]
        rw [show k + L i + 1 = L i + k + 1 by omega, add_assoc]
    obtain ⟨c, hc, hv⟩ := hcyc.count hno'
    refine ⟨by omega, c, ?_, fun v => le_trans (Finset.card_le_card fun k hk => ?_) (hv fun i => (v i : ZMod K.modulus))⟩
    · show c * (K.modulus - 1 - 0 + 1) ^ (d + 1) ≤ _
      rw [show K.modulus - 1 - 0 + 1 = K.modulus by omega, hc]
      omega
    · rw [Finset.mem_filter] at hk ⊢
      refine ⟨hk.1, fun i => ?_⟩
      rw [← hx, ← gen_cast, hk.2 i]

/-- A permutation of the values changes nothing. -/
theorem streams_perm {σ : Type} {G G' : Gen σ} {d T : ℕ} {es : Fin d → σ} {π : ℕ → ℕ} (h0 : G.min = G'.min) (h1 : G.max = G'.max)
    (hπ : ∀ i k, nth G'.call (es i) k = π (nth G.call (es i) k))
    (hinj : ∀ i j k k', π (nth G.call (es i) k) = π (nth G.call (es j) k') → nth G.call (es i) k = nth G.call (es j) k') :
    StreamsEquidistributed G' es T ↔ StreamsEquidistributed G es T := by
  unfold StreamsEquidistributed
  rw [h0, h1]
  refine and_congr_right fun _ => exists_congr fun c => and_congr_right fun _ => ⟨fun h v => ?_, fun h v => ?_⟩
  · refine le_trans (Finset.card_le_card fun k hk => ?_) (h fun i => π (v i))
    rw [Finset.mem_filter] at hk ⊢
    exact ⟨hk.1, fun i => by rw [hπ, hk.2 i]⟩
  · by_cases he : ∃ k0, ∀ i, nth G'.call (es i) k0 = v i
    · obtain ⟨k0, hk0⟩ := he
      refine le_trans (Finset.card_le_card fun k hk => ?_) (h fun i => nth G.call (es i) k0)
      rw [Finset.mem_filter] at hk ⊢
      exact ⟨hk.1, fun i => hinj i i k k0 (by rw [← hπ, ← hπ, hk.2 i, hk0 i])⟩
    · rw [Finset.card_eq_zero.2]
      · exact Nat.zero_le _
      · exact Finset.filter_eq_empty_iff.2 fun k _ hc => he ⟨k, hc⟩

theorem yarn_streams_iff (K : Kind) {d T : ℕ} (es : Fin d → {e : MRG K.order // InRange K.modulus e}) :
    StreamsEquidistributed (yarnGen K) es T ↔ StreamsEquidistributed (mrgGen K) es T := by
  have hg : documentedBase K = K.gen := by cases K <;> rfl
  have hm : documentedModulus K = K.modulus := by cases K <;> rfl
  have hval : ∀ i k, nth (yarnGen K).call (es i) k =
      (if ((nth (mrgGen K).call (es i) k : ℕ) : ℤ) = 0 then 0 else (K.gen : Int) ^ ((nth (mrgGen K).call (es i) k : ℕ) : ℤ).toNat % K.modulus).toNat := fun i k => by
    have h := (C30_yarn_output K (es i).1 (es i).2 k).1
    have h0 := (C26_mrg_range K (es i).1 (es i).2 k).1
    rw [hg, hm] at h
    rw [yarnGen, sub_nth, mrgGen, sub_nth, h, Int.toNat_of_nonneg h0]
    rfl
  refine streams_perm (π := fun x => (if (x : ℤ) = 0 then 0 else (K.gen : Int) ^ (x : ℤ).toNat % K.modulus).toNat) rfl rfl hval fun i j k k' h => ?_
  have hm0 : (0 : ℤ) < K.modulus := by have := two_lt K; omega
  have hnn : ∀ x : ℕ, 0 ≤ (if (x : ℤ) = 0 then 0 else (K.gen : Int) ^ (x : ℤ).toNat % K.modulus) ∧
      (if (x : ℤ) = 0 then 0 else (K.gen : Int) ^ (x : ℤ).toNat % K.modulus) < K.modulus := fun x => by
    split_ifs
    · exact ⟨le_rfl, hm0⟩
    · exact ⟨Int.emod_nonneg _ hm0.ne', Int.emod_lt_of_pos _ hm0⟩
  have h' := (Int.toNat_of_nonneg (hnn _).1).symm.trans ((congrArg Nat.cast h).trans (Int.toNat_of_nonneg (hnn _).1))
  obtain ⟨x, -, hx⟩ := C30_yarn_permutation K _ (hnn (nth (mrgGen K).call (es j) k')).1 (hnn (nth (mrgGen K).call (es j) k')).2
  have ha := hx ((nth (mrgGen K).call (es i) k : ℕ) : ℤ) ⟨⟨by omega, by exact_mod_cast gen_lt (es i) k⟩, h'⟩
  have hb := hx ((nth (mrgGen K).call (es j) k' : ℕ) : ℤ) ⟨⟨by omega, by exact_mod_cast gen_lt (es j) k'⟩, rfl⟩
  omega

/-- Two streams are equidistributed unless their states are proportional. -/
theorem pair_iff (K : Kind) {l : List Int} (hl : l ∈ fullPeriod K) (e e' : {e : MRG K.order // InRange K.modulus e})
    (hu : Uses e.1 l) (hz : NonZero e.1) (hu' : Uses e'.1 l) (hz' : NonZero e'.1) :
    StreamsEquidistributed (mrgGen K) ![e, e'] (K.modulus ^ K.order - 1) ↔ ¬ ∃ g : ZMod K.modulus, castV K.modulus e'.1.r = g • castV K.modulus e.1.r := by
  have hc := cyclic hl e.2 hu hz
  rw [streams_iff K hl (d := 1) ![e, e'] (by rw [Fin.forall_fin_two]; exact ⟨hu, hu'⟩) (by rw [Fin.forall_fin_two]; exact ⟨hz, hz'⟩)]
  have hrel : ∀ (g : Fin 2 → ℤ) k, (K.modulus : ℤ) ∣ ∑ i, g i * nth (call K.modulus) (![e, e'] i).1 k ↔
      (comp K.modulus (params l : Fin K.order → Int) ^ (k + 1) *ᵥ ((g 0 : ZMod K.modulus) • castV K.modulus e.1.r + (g 1 : ZMod K.modulus) • castV K.modulus e'.1.r)) 0 = 0 := fun g k => by
    rw [← ZMod.intCast_zmod_eq_zero_iff_dvd, Fin.sum_univ_two, mulVec_add, mulVec_smul, mulVec_smul, Pi.add_apply, Pi.smul_apply, Pi.smul_apply,
      ← nth_cast e.2 hu, ← nth_cast e'.2 hu']
    push_cast
    rfl
  simp only [hrel]
  constructor
  · rintro h ⟨g, hg⟩
    have := h ![(g.val : ℤ), -1] (fun k => by
      simp only [Matrix.cons_val_zero, Matrix.cons_val_one, Int.cast_natCast, ZMod.natCast_zmod_val, Int.cast_neg, Int.cast_one, hg]
      rw [neg_one_smul, add_neg_cancel, mulVec_zero]; rfl) 1
    rw [← ZMod.intCast_zmod_eq_zero_iff_dvd] at this
    simp at this
  · intro h g hg
    have hy : (g 0 : ZMod K.modulus) • castV K.modulus e.1.r + (g 1 : ZMod K.modulus) • castV K.modulus e'.1.r = 0 := by
      have h0 : comp K.modulus (params l : Fin K.order → Int) *ᵥ ((g 0 : ZMod K.modulus) • castV K.modulus e.1.r + (g 1 : ZMod K.modulus) • castV K.modulus e'.1.r) = 0 := by
        refine observable hc.unit fun j => ?_
        rw [mulVec_mulVec, ← pow_succ]
        exact hg j
      by_contra hne
      exact mulVec_ne hc.unit hne h0
    have h1 : (g 1 : ZMod K.modulus) = 0 := by
      by_contra h1
      refine h ⟨-(g 0 : ZMod K.modulus) / (g 1 : ZMod K.modulus), ?_⟩
      have : (g 1 : ZMod K.modulus) • castV K.modulus e'.1.r = -((g 0 : ZMod K.modulus) • castV K.modulus e.1.r) := by
        rw [eq_neg_iff_add_eq_zero, add_comm]; exact hy
      rw [div_eq_inv_mul, mul_smul, neg_smul, ← this, smul_smul, inv_mul_cancel₀ h1, one_smul]
    rw [h1, zero_smul, add_zero] at hy
    have h0 : (g 0 : ZMod K.modulus) = 0 := (smul_eq_zero.1 hy).resolve_right hc.ne
    rw [Fin.forall_fin_two]
    exact ⟨(ZMod.intCast_zmod_eq_zero_iff_dvd _ _).1 h0, (ZMod.intCast_zmod_eq_zero_iff_dvd _ _).1 h1⟩

theorem cast_prop {K : Kind} {e e' : MRG K.order} : (∃ g : ZMod K.modulus, castV K.modulus e'.r = g • castV K.modulus e.r) ↔
    ∃ g : ℤ, ∀ i, (K.modulus : ℤ) ∣ e'.r i - g * e.r i := by
  constructor
  · rintro ⟨g, hg⟩
    refine ⟨g.val, fun i => ?_⟩
    rw [← ZMod.intCast_zmod_eq_zero_iff_dvd]
    push_cast
    rw [ZMod.natCast_zmod_val, sub_eq_zero]
    exact congrFun hg i
  · rintro ⟨g, hg⟩
    refine ⟨(g : ZMod K.modulus), funext fun i => ?_⟩
    have := hg i
    rw [← ZMod.intCast_zmod_eq_zero_iff_dvd] at this
    push_cast at this
    rw [sub_eq_zero] at this
    exact this

/-- The state L calls later. -/
theorem castV_after {K : Kind} {l : List Int} {e : MRG K.order} (hr : InRange K.modulus e) (hu : Uses e l) (L : ℕ) :
    castV K.modulus (afterCalls (call K.modulus) L e).r = comp K.modulus (params l : Fin K.order → Int) ^ L *ᵥ castV K.modulus e.r := by
  rw [afterCalls_call, castV_iterate (isEngineModulus K) (order_le K) (valid_iff.1 hr), uses_eq hu]

theorem uses_after {K : Kind} {l : List Int} {e : MRG K.order} (hu : Uses e l) (L : ℕ) : Uses (afterCalls (call K.modulus) L e) l := by
  intro i
  rw [afterCalls_call, iterate_a]
  exact hu i

theorem nonZero_after {K : Kind} {l : List Int} (hl : l ∈ fullPeriod K) {e : MRG K.order} (hr : InRange K.modulus e) (hu : Uses e l) (hz : NonZero e) (L : ℕ) :
    NonZero (afterCalls (call K.modulus) L e) := by
  by_contra h
  rw [NonZero] at h
  push Not at h
  have h1 := castV_after hr hu L
  have h2 := mulVec_ne ((cyclic hl hr hu hz).unit.pow L) (cyclic hl hr hu hz).ne
  rw [← h1] at h2
  exact h2 (funext fun i => by rw [castV, h i]; simp)

theorem lag_iff (K : Kind) {l : List Int} (hl : l ∈ fullPeriod K) (e e' : {e : MRG K.order // InRange K.modulus e}) (hu : Uses e.1 l) (hz : NonZero e.1) {L : ℕ}
    (he : e'.1 = afterCalls (call K.modulus) L e.1) :
    StreamsEquidistributed (mrgGen K) ![e, e'] (K.modulus ^ K.order - 1) ↔ ¬ (K.modulus ^ K.order - 1) / (K.modulus - 1) ∣ L := by
  have hc := cyclic hl e.2 hu hz
  rw [pair_iff K hl e e' hu hz (by rw [he]; exact uses_after hu L) (by rw [he]; exact nonZero_after hl e.2 hu hz L), ← hc.scalar_iff (two_lt K), he, castV_after e.2 hu]
  refine not_congr (exists_congr fun g => ⟨hc.scalar_of, fun h => ?_⟩)
  rw [h, smul_mulVec, one_mulVec]

/-- At a proportional lag the values are proportional. -/
theorem lag_proportional (K : Kind) {l : List Int} (hl : l ∈ fullPeriod K) {e e' : MRG K.order} (hr : InRange K.modulus e) (hu : Uses e l) (hz : NonZero e) {L : ℕ}
    (he : e' = afterCalls (call K.modulus) L e) (hL : (K.modulus ^ K.order - 1) / (K.modulus - 1) ∣ L) :
    ∃ g : ℤ, ∀ k, nth (call K.modulus) e' k = g * nth (call K.modulus) e k % K.modulus := by
  have hc := cyclic hl hr hu hz
  obtain ⟨g, hg⟩ := (hc.scalar_iff (two_lt K) L).2 hL
  have hr' : InRange K.modulus e' := by
    rw [he, afterCalls_call]; exact valid_iff.2 (iterate_valid (isEngineModulus K) (order_le K) (valid_iff.1 hr) L)
  refine ⟨g.val, fun k => ?_⟩
  obtain ⟨r1, r2, -⟩ := C26_mrg_range K e' hr' k
  rw [← Int.emod_eq_of_lt r1 (b := (K.modulus : ℤ)) (by omega)]
  refine (ZMod.intCast_eq_intCast_iff' _ _ _).1 ?_
  rw [nth_cast hr' (l := l) (by rw [he]; exact uses_after hu L), he, castV_after hr hu, hg, smul_mulVec, one_mulVec, mulVec_smul, Pi.smul_apply, ← nth_cast hr hu]
  push_cast
  rw [ZMod.natCast_zmod_val]
  rfl

/-- Leapfrog streams are as independent as the streams of the engine that lie as far apart. -/
theorem leapfrog_streams {σ : Type} {G : Gen σ} {e : σ} {d s T : ℕ} {E : Fin d → σ} {o : Fin d → ℕ}
    (h : StreamsEquidistributed G (fun i => afterCalls G.call (o i) e) T) (hp : ∀ k, nth G.call e (k + T) = nth G.call e k) (hs : Nat.Coprime s T)
    (hl : ∀ i, Leapfrog G.call e (E i) s (o i)) : StreamsEquidistributed G E T := by
  obtain ⟨hT, c, hc, hv⟩ := h
  refine ⟨hT, c, hc, fun v => le_trans ?_ (hv v)⟩
  have hmod : ∀ j r, nth G.call e (j % T + r) = nth G.call e (j + r) := fun j r => by
    rw [LeapfrogUniform.nth_mod hp (j % T + r), LeapfrogUniform.nth_mod hp (j + r), Nat.mod_add_mod]
  have hsh : ∀ i k, nth G.call (afterCalls G.call (o i) e) k = nth G.call e (k + o i) := fun i k => by
    rw [nth, nth, afterCalls_add]
  refine Finset.card_le_card_of_injOn (fun k => (k * s) % T) ?_ ?_
  · intro k hk
    rw [Finset.mem_coe, Finset.mem_filter] at hk ⊢
    exact ⟨Finset.mem_range.2 (Nat.mod_lt _ hT), fun i => by rw [hsh, hmod, ← hl]; exact hk.2 i⟩
  · intro i hi j hj hij
    rw [Finset.mem_coe, Finset.mem_filter, Finset.mem_range] at hi hj
    have h3 : i ≡ j [MOD T] := Nat.ModEq.cancel_right_of_coprime (Nat.coprime_comm.1 hs) hij
    rwa [Nat.ModEq, Nat.mod_eq_of_lt hi.1, Nat.mod_eq_of_lt hj.1] at h3

theorem not_dvd_two_pow {q t : ℕ} (ht : t ∣ q) (h2 : Nat.Coprime t 2) (h1 : t ≠ 1) (s : ℕ) : ¬ q ∣ 2 ^ s := fun h =>
  h1 (Nat.Coprime.eq_one_of_dvd (Nat.Coprime.pow_right s h2) (ht.trans h))

end Trng.Streams
