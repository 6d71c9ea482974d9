import Verif.Proofs.ModInverse
import Verif.Proofs.MatMod
import Mathlib.Data.ZMod.Basic
import Mathlib.Algebra.Field.ZMod
import Mathlib.Algebra.BigOperators.Ring.Finset
import Mathlib.Tactic.LinearCombination

/-! Helper lemmas for int_math::gauss (C21, C22). -/
namespace Trng.IntMath

variable {m : Nat} [Fact m.Prime] {n : Nat}

/-- The value is a residue. -/
def InR (m : Nat) (x : Int) : Prop := 0 ≤ x ∧ x < m

theorem two_le : 2 ≤ m := (Fact.out : m.Prime).two_le

theorem InR.cast_eq_zero {x : Int} (h : InR m x) : (x : ZMod m) = 0 ↔ x = 0 := by
  rw [ZMod.intCast_zmod_eq_zero_iff_dvd]
  constructor
  · intro hd
    exact Int.eq_zero_of_dvd_of_nonneg_of_lt h.1 h.2 hd
  · rintro rfl; exact dvd_zero _

theorem InR.inj {x y : Int} (hx : InR m x) (hy : InR m y) (h : (x : ZMod m) = y) : x = y := by
  rw [ZMod.intCast_eq_intCast_iff] at h
  have := h.eq
  rwa [Int.emod_eq_of_lt hx.1 hx.2, Int.emod_eq_of_lt hy.1 hy.2] at this

theorem mulMod_spec (hm : m ≤ 2147483647) {x y : Int} (hx : 0 ≤ x) (hy : 0 ≤ y) :
    InR m (mulMod x y m) ∧ ((mulMod x y m : Int) : ZMod m) = x * y := by
  have h2 := two_le (m := m)
  unfold mulMod
  rw [Int.tmod_eq_emod_of_nonneg (mul_nonneg hx hy)]
  have h0 := Int.emod_nonneg (x * y) (show (m : Int) ≠ 0 by omega)
  have h1 := Int.emod_lt_of_pos (x * y) (show 0 < (m : Int) by omega)
  rw [toI32_of_range h0 h1 (by omega)]
  refine ⟨⟨h0, h1⟩, ?_⟩
  rw [← Int.cast_mul, ZMod.intCast_eq_intCast_iff]
  exact Int.mod_modEq _ _

theorem subMod_spec (hm : m ≤ 2147483647) {x y : Int} (hx : InR m x) (hy : InR m y) :
    ∃ d, subMod x y m = .ok d ∧ InR m d ∧ (d : ZMod m) = x - y := by
  obtain ⟨hx0, hx1⟩ := hx
  obtain ⟨hy0, hy1⟩ := hy
  unfold subMod
  rw [i32_ok (by omega) (by omega), Res.bind_ok]
  split
  · exact ⟨_, i32_ok (by omega) (by omega), ⟨by omega, by omega⟩, by push_cast; simp⟩
  · exact ⟨_, rfl, ⟨by omega, by omega⟩, by push_cast; rfl⟩

theorem inv_spec (hm : m ≤ 2147483647) {x : Int} (hx : InR m x) (h0 : x ≠ 0) :
    ∃ t, moduloInverse x m = .ok t ∧ InR m t ∧ (x : ZMod m) * t = 1 := by
  have h2 := two_le (m := m)
  obtain ⟨hx0, hx1⟩ := hx
  have hg : Int.gcd x m = 1 := by
    rw [Int.gcd_comm, Int.gcd_eq_natAbs, Int.natAbs_natCast]
    refine (Nat.Coprime.symm ?_).symm
    refine ((Fact.out : m.Prime).coprime_iff_not_dvd).2 ?_
    intro hd
    have := Nat.le_of_dvd (by omega) hd
    omega
  obtain ⟨t, ht, t0, t1, hd⟩ := (moduloInverse_spec (a := x) (m := m) (by omega) (by omega) (by omega)
    (by omega)).1 hg
  refine ⟨t, ht, ⟨t0, t1⟩, ?_⟩
  have : ((x * t - 1 : Int) : ZMod m) = 0 := by
    rw [ZMod.intCast_zmod_eq_zero_iff_dvd]; exact hd
  push_cast at this
  exact sub_eq_zero.1 this

/-! ### row operations -/

theorem foldl_row (v : Int → Int) (r : Fin n) (i : Fin n) : ∀ (l : List (Fin n)), l.Nodup →
    ∀ s : GState n, s.p i = r →
    l.foldl (fun s j => s.setA (s.p i) j (v (s.a (s.p i) j))) s =
      { s with a := Function.update s.a r (fun c => if c ∈ l then v (s.a r c) else s.a r c) }
  | [], _, s, _ => by
    simp only [List.foldl_nil, List.not_mem_nil, if_false]
    cases s; simp
  | k :: l, hl, s, hs => by
    rw [List.foldl_cons, foldl_row v r i l (List.nodup_cons.1 hl).2 _ (by simpa [GState.setA] using hs)]
    simp only [GState.setA, hs, Function.update_self, Function.update_idem]
    congr 2
    funext c
    by_cases hc : c = k
    · subst hc; simp [(List.nodup_cons.1 hl).1]
    · simp [hc]

theorem foldlM_row (f : Fin n → Int → Res Int) (v : Fin n → Int) (r : Fin n)
    (body : GState n → Fin n → Res (GState n)) (P : GState n → Prop)
    (hbody : ∀ s k, P s → body s k = (f k (s.a r k) >>= fun x => .ok (s.setA r k x)))
    (hP : ∀ s k x, P s → P (s.setA r k x)) :
    ∀ (l : List (Fin n)), l.Nodup → ∀ s : GState n, P s → (∀ c ∈ l, f c (s.a r c) = .ok (v c)) →
    l.foldlM body s =
      .ok { s with a := Function.update s.a r (fun c => if c ∈ l then v c else s.a r c) }
  | [], _, s, _, _ => by
    simp only [List.foldlM_nil, List.not_mem_nil, if_false, Res.pure_eq]
    cases s; simp
  | k :: l, hl, s, hs, hv => by
    rw [List.foldlM_cons, hbody s k hs, hv k (by simp), Res.bind_ok, Res.bind_ok,
      foldlM_row f v r body P hbody hP l (List.nodup_cons.1 hl).2 _ (hP s k _ hs) (by
        intro c hc
        have : c ≠ k := by rintro rfl; exact (List.nodup_cons.1 hl).1 hc
        simp only [GState.setA, Function.update_self, Function.update_of_ne this]
        exact hv c (by simp [hc]))]
    simp only [GState.setA, Function.update_self, Function.update_idem]
    congr 3
    funext c
    by_cases hc : c = k
    · subst hc; simp [(List.nodup_cons.1 hl).1]
    · simp [hc]

theorem mem_fromIdx {i j : Fin n} : j ∈ fromIdx i ↔ i ≤ j := by simp [fromIdx]
theorem mem_afterIdx {i j : Fin n} : j ∈ afterIdx i ↔ i < j := by simp [afterIdx]
theorem nodup_fromIdx (i : Fin n) : (fromIdx i).Nodup := (List.nodup_finRange n).filter _
theorem nodup_afterIdx (i : Fin n) : (afterIdx i).Nodup := (List.nodup_finRange n).filter _

/-- Entry of the permuted matrix. -/
def A' (m : Nat) (s : GState n) (r c : Fin n) : ZMod m := (s.a (s.p r) c : ZMod m)
/-- Entry of the permuted right hand side. -/
def B' (m : Nat) (s : GState n) (r : Fin n) : ZMod m := (s.b (s.p r) : ZMod m)

/-- `x` solves the permuted system with right hand side scaled by `y`. -/
def Sol (m : Nat) (s : GState n) (x : Fin n → ZMod m) (y : ZMod m) : Prop :=
  ∀ r, ∑ c, A' m s r c * x c = y * B' m s r

/-- Invariant of the elimination after `k` columns; `s0` is the initial system. -/
structure GInv (m : Nat) (s0 : GState n) (k : Nat) (s : GState n) : Prop where
  inj : Function.Injective s.p
  ra : ∀ r c, InR m (s.a r c)
  rb : ∀ r, InR m (s.b r)
  diag : ∀ r : Fin n, r.val < k → A' m s r r = 1
  low : ∀ r c : Fin n, c.val < k → c < r → A' m s r c = 0
  sol : ∀ x y, Sol m s x y ↔ Sol m s0 x y

/-- A step replaces, in terms of positions, row `i` by `t * row i - u * row j`. -/
theorem sol_rowOp {s s' : GState n} {i j : Fin n} {t u : ZMod m} (ht : t ≠ 0) (hij : u ≠ 0 → j ≠ i)
    (hA : ∀ c, A' m s' i c = t * A' m s i c - u * A' m s j c)
    (hB : B' m s' i = t * B' m s i - u * B' m s j)
    (hA' : ∀ r c, r ≠ i → A' m s' r c = A' m s r c) (hB' : ∀ r, r ≠ i → B' m s' r = B' m s r)
    (x : Fin n → ZMod m) (y : ZMod m) : Sol m s' x y ↔ Sol m s x y := by
  have e : ∑ c, A' m s' i c * x c = t * ∑ c, A' m s i c * x c - u * ∑ c, A' m s j c * x c := by
    rw [Finset.mul_sum, Finset.mul_sum, ← Finset.sum_sub_distrib]
    exact Finset.sum_congr rfl fun c _ => by rw [hA]; ring
  constructor
  · intro h r
    by_cases hr : r = i
    · subst hr
      have h1 := h r
      rw [e, hB] at h1
      by_cases hu : u = 0
      · subst hu
        apply mul_left_cancel₀ ht
        linear_combination h1
      · have h2 := h j
        simp only [hA' j _ (hij hu), hB' j (hij hu)] at h2
        apply mul_left_cancel₀ ht
        linear_combination h1 + u * h2
    · have := h r
      simpa only [hA' r _ hr, hB' r hr] using this
  · intro h r
    by_cases hr : r = i
    · subst hr
      rw [e, hB, h r, h j]; ring
    · simpa only [hA' r _ hr, hB' r hr] using h r

omit [Fact m.Prime] in
theorem pivot_inv {s0 s : GState n} {i : Fin n} (I : GInv m s0 i s) : GInv m s0 i (gaussPivot s i) := by
  unfold gaussPivot
  split
  · split
    · rename_i j hj
      have hij : i < j := mem_afterIdx.1 (List.mem_of_find?_eq_some hj)
      have hp : Function.update (Function.update s.p i (s.p j)) j (s.p i) = s.p ∘ Equiv.swap i j := by
        funext k
        by_cases hkj : k = j
        · subst hkj; simp
        · by_cases hki : k = i
          · subst hki; simp [Function.update_of_ne hkj]
          · simp [Function.update_of_ne hkj, Function.update_of_ne hki, Equiv.swap_apply_of_ne_of_ne hki hkj]
      rw [hp]
      have hfix : ∀ r : Fin n, r.val < i.val → Equiv.swap i j r = r := fun r hr =>
        Equiv.swap_apply_of_ne_of_ne (by rintro rfl; omega) (by rintro rfl; rw [Fin.lt_def] at hij; omega)
      have hge : ∀ r : Fin n, i.val ≤ r.val → i.val ≤ (Equiv.swap i j r).val := fun r hr => by
        rcases Equiv.swap_apply_def i j r with h
        rw [h]; split
        · exact le_of_lt hij
        · split <;> simp [hr]
      refine ⟨I.inj.comp (Equiv.injective _), I.ra, I.rb, ?_, ?_, ?_⟩
      · intro r hr
        have := I.diag r hr
        simpa [A', hfix r hr] using this
      · intro r c hc hcr
        by_cases hr : r.val < i.val
        · simpa [A', hfix r hr] using I.low r c hc hcr
        · have := I.low (Equiv.swap i j r) c hc (by have := hge r (by omega); rw [Fin.lt_def]; omega)
          simpa [A'] using this
      · intro x y
        rw [← I.sol x y]
        constructor
        · intro h r
          have := h (Equiv.swap i j r)
          simpa [A', B'] using this
        · intro h r
          have := h (Equiv.swap i j r)
          simpa [A', B'] using this
    · exact I
  · exact I

/-- If the pivot vanishes after the exchange, the rest of the column does. -/
theorem pivot_zero {s : GState n} {i : Fin n} (h : (gaussPivot s i).a ((gaussPivot s i).p i) i = 0) :
    gaussPivot s i = s ∧ ∀ r, i ≤ r → s.a (s.p r) i = 0 := by
  unfold gaussPivot at h ⊢
  split at h
  · rename_i h0
    rw [if_pos h0]
    split at h
    · rename_i j hj
      have hij : i < j := mem_afterIdx.1 (List.mem_of_find?_eq_some hj)
      have := List.find?_some hj
      simp only [Function.update_of_ne (ne_of_lt hij), Function.update_self] at h
      simp [h] at this
    · rename_i hn
      refine ⟨rfl, fun r hr => ?_⟩
      rcases eq_or_lt_of_le hr with rfl | hlt
      · exact h0
      · have := List.find?_eq_none.1 hn r (mem_afterIdx.2 hlt)
        simpa using this
  · rename_i h0; exact absurd h h0

theorem scale_spec (hm : m ≤ 2147483647) {s0 s : GState n} {i : Fin n} (I : GInv m s0 i s) {t : Int}
    (ht : InR m t) (hinv : (s.a (s.p i) i : ZMod m) * t = 1) :
    GInv m s0 i (gaussScale m t s i) ∧ A' m (gaussScale m t s i) i i = 1 := by
  have ht0 : (t : ZMod m) ≠ 0 := by
    intro h; rw [h, mul_zero] at hinv; exact zero_ne_one hinv
  have e : gaussScale m t s i = { s with
      a := Function.update s.a (s.p i)
        (fun c => if i ≤ c then mulMod (s.a (s.p i) c) t m else s.a (s.p i) c),
      b := Function.update s.b (s.p i) (mulMod (s.b (s.p i)) t m) } := by
    unfold gaussScale
    rw [foldl_row (fun x => mulMod x t m) (s.p i) i _ (nodup_fromIdx i) s rfl]
    simp only [GState.setB, mem_fromIdx]
  have hAi : ∀ c, A' m (gaussScale m t s i) i c = t * A' m s i c - 0 * A' m s i c := by
    intro c
    rw [e]; simp only [A', Function.update_self]
    split
    · rw [(mulMod_spec hm (I.ra _ _).1 ht.1).2]; ring
    · rename_i hc
      have := I.low i c (by rw [Fin.le_def] at hc; omega) (by simpa using hc)
      simp only [A'] at this
      rw [this]; simp
  have hne : ∀ r, r ≠ i → s.p r ≠ s.p i := fun r hr h => hr (I.inj h)
  have hA' : ∀ r c, r ≠ i → A' m (gaussScale m t s i) r c = A' m s r c := by
    intro r c hr
    rw [e]; simp only [A', Function.update_of_ne (hne r hr)]
  refine ⟨⟨?_, ?_, ?_, ?_, ?_, ?_⟩, ?_⟩
  · rw [e]; exact I.inj
  · intro r c
    rw [e]; dsimp only
    by_cases hr : r = s.p i
    · subst hr; rw [Function.update_self]
      split
      · exact (mulMod_spec hm (I.ra _ _).1 ht.1).1
      · exact I.ra _ _
    · rw [Function.update_of_ne hr]; exact I.ra _ _
  · intro r
    rw [e]; dsimp only
    by_cases hr : r = s.p i
    · subst hr; rw [Function.update_self]; exact (mulMod_spec hm (I.rb _).1 ht.1).1
    · rw [Function.update_of_ne hr]; exact I.rb _
  · intro r hr
    rw [hA' r r (by rintro rfl; omega)]; exact I.diag r hr
  · intro r c hc hcr
    by_cases hr : r = i
    · subst hr; rw [hAi, I.low _ c hc hcr]; ring
    · rw [hA' r c hr]; exact I.low r c hc hcr
  · intro x y
    rw [← I.sol x y]
    refine sol_rowOp (i := i) (j := i) ht0 (fun h => absurd rfl h) hAi ?_ hA' ?_ x y
    · rw [e]; simp only [B', Function.update_self]
      rw [(mulMod_spec hm (I.rb _).1 ht.1).2]; ring
    · intro r hr
      rw [e]; simp only [B', Function.update_of_ne (hne r hr)]
  · rw [hAi]; simp only [A']; linear_combination hinv

theorem elimRow_spec (hm : m ≤ 2147483647) {s0 s : GState n} {i j : Fin n} (hij : i < j)
    (I : GInv m s0 i s) (hii : A' m s i i = 1) :
    ∃ s', gaussElimRow m i s j = .ok s' ∧ GInv m s0 i s' ∧ A' m s' j i = 0 ∧
      ∀ r c, r ≠ j → A' m s' r c = A' m s r c := by
  unfold gaussElimRow
  by_cases h0 : s.a (s.p j) i = 0
  · rw [if_neg (by simpa using h0)]
    exact ⟨s, rfl, I, by simp [A', h0], fun _ _ _ => rfl⟩
  rw [if_pos h0]
  obtain ⟨t, ht, htR, hinv⟩ := inv_spec hm (I.ra (s.p j) i) h0
  rw [ht, Res.bind_ok]
  have ht0 : (t : ZMod m) ≠ 0 := by
    intro h; rw [h, mul_zero] at hinv; exact zero_ne_one hinv
  have hpij : s.p i ≠ s.p j := fun h => (ne_of_lt hij) (I.inj h)
  -- the new row
  have hv : ∀ c, ∃ d, subMod (mulMod (s.a (s.p j) c) t m) (s.a (s.p i) c) m = .ok d ∧ InR m d ∧
      (d : ZMod m) = t * A' m s j c - 1 * A' m s i c := by
    intro c
    obtain ⟨h1, h2⟩ := mulMod_spec hm (I.ra (s.p j) c).1 htR.1
    obtain ⟨d, hd, hR, he⟩ := subMod_spec hm h1 (I.ra (s.p i) c)
    exact ⟨d, hd, hR, by rw [he, h2]; simp only [A']; ring⟩
  choose v hv hvR hve using hv
  have hrow : gaussRow m t i j s = .ok { s with
      a := Function.update s.a (s.p j) (fun c => if c ∈ fromIdx i then v c else s.a (s.p j) c) } := by
    unfold gaussRow
    refine foldlM_row (fun k x => subMod (mulMod x t m) (s.a (s.p i) k) m) v (s.p j) _
      (fun s' => s'.p = s.p ∧ s'.a (s.p i) = s.a (s.p i)) ?_ ?_ _ (nodup_fromIdx i) s ⟨rfl, rfl⟩
      (fun c _ => hv c)
    · rintro s' k ⟨hp, ha⟩
      rw [hp, ha]; rfl
    · rintro s' k x ⟨hp, ha⟩
      refine ⟨hp, ?_⟩
      simp only [GState.setA, Function.update_of_ne hpij]; exact ha
  rw [hrow, Res.bind_ok]
  obtain ⟨h1, h2⟩ := mulMod_spec hm (I.rb (s.p j)).1 htR.1
  obtain ⟨d, hd, hdR, hde⟩ := subMod_spec hm h1 (I.rb (s.p i))
  dsimp only
  rw [hd, Res.bind_ok]
  refine ⟨_, rfl, ?_⟩
  simp only [GState.setB]
  set s' : GState n := { s with
      a := Function.update s.a (s.p j) (fun c => if c ∈ fromIdx i then v c else s.a (s.p j) c),
      b := Function.update s.b (s.p j) d } with hs'
  have hne : ∀ r, r ≠ j → s.p r ≠ s.p j := fun r hr h => hr (I.inj h)
  have hAj : ∀ c, A' m s' j c = t * A' m s j c - 1 * A' m s i c := by
    intro c
    simp only [hs', A', Function.update_self]
    split
    · exact hve c
    · rename_i hc
      rw [mem_fromIdx, not_le] at hc
      have e1 := I.low i c hc hc
      have e2 := I.low j c hc (hc.trans hij)
      simp only [A'] at e1 e2
      rw [e1, e2]; ring
  have hA' : ∀ r c, r ≠ j → A' m s' r c = A' m s r c := by
    intro r c hr
    simp only [hs', A', Function.update_of_ne (hne r hr)]
  refine ⟨⟨I.inj, ?_, ?_, ?_, ?_, ?_⟩, ?_, hA'⟩
  · intro r c
    by_cases hr : r = s.p j
    · subst hr
      simp only [hs', Function.update_self]
      split
      · exact hvR c
      · exact I.ra _ _
    · simp only [hs', Function.update_of_ne hr]; exact I.ra _ _
  · intro r
    by_cases hr : r = s.p j
    · subst hr; simp only [hs', Function.update_self]; exact hdR
    · simp only [hs', Function.update_of_ne hr]; exact I.rb _
  · intro r hr
    rw [hA' r r (by rintro rfl; rw [Fin.lt_def] at hij; omega)]; exact I.diag r hr
  · intro r c hc hcr
    by_cases hr : r = j
    · subst hr; rw [hAj, I.low _ c hc hcr, I.low i c hc hc]; ring
    · rw [hA' r c hr]; exact I.low r c hc hcr
  · intro x y
    rw [← I.sol x y]
    refine sol_rowOp (i := j) (j := i) ht0 (fun _ => ne_of_lt hij) hAj ?_ hA' ?_ x y
    · simp only [hs', B', Function.update_self]
      rw [hde, h2]; ring
    · intro r hr
      simp only [hs', B', Function.update_of_ne (hne r hr)]
  · rw [hAj, hii]; simp only [A']; linear_combination hinv

theorem elim_spec (hm : m ≤ 2147483647) {s0 : GState n} {i : Fin n} : ∀ (l : List (Fin n)) (s : GState n),
    (∀ j ∈ l, i < j) → GInv m s0 i s → A' m s i i = 1 →
    (∀ r, i < r → r ∉ l → A' m s r i = 0) →
    ∃ s', l.foldlM (gaussElimRow m i) s = .ok s' ∧ GInv m s0 (i + 1) s'
  | [], s, _, I, hii, hz => by
    refine ⟨s, rfl, I.inj, I.ra, I.rb, ?_, ?_, I.sol⟩
    · intro r hr
      by_cases h : r = i
      · subst h; exact hii
      · exact I.diag r (by have : r.val ≠ i.val := fun h' => h (Fin.ext h'); omega)
    · intro r c hc hcr
      by_cases h : c = i
      · subst h; exact hz r hcr (by simp)
      · exact I.low r c (by have : c.val ≠ i.val := fun h' => h (Fin.ext h'); omega) hcr
  | j :: l, s, hl, I, hii, hz => by
    obtain ⟨s', hs', I', hji, hoth⟩ := elimRow_spec hm (hl j (by simp)) I hii
    rw [List.foldlM_cons, hs', Res.bind_ok]
    refine elim_spec hm l s' (fun k hk => hl k (by simp [hk])) I' ?_ ?_
    · rw [hoth i i (ne_of_lt (hl j (by simp)))]; exact hii
    · intro r hir hrl
      by_cases hrj : r = j
      · subst hrj; exact hji
      · rw [hoth r i hrj]; exact hz r hir (by simp [hrj, hrl])

theorem triangular_spec (hm : m ≤ 2147483647) {s0 : GState n} : ∀ (l : List (Fin n)) (k : Nat) (s : GState n),
    l = (List.finRange n).drop k → k ≤ n → GInv m s0 k s →
    ∃ rank s', gaussTriangular m l k s = .ok (rank, s') ∧ rank ≤ n ∧ GInv m s0 rank s' ∧
      ∀ i : Fin n, i.val = rank → ∀ r, i ≤ r → A' m s' r i = 0
  | [], k, s, hl, hk, I => by
    have : n ≤ k := by simpa using (List.drop_eq_nil_iff.1 hl.symm)
    obtain rfl : k = n := by omega
    exact ⟨k, s, rfl, le_rfl, I, fun i hi => absurd hi (by have := i.isLt; omega)⟩
  | i :: l, k, s, hl, hk, I => by
    have hkn : k < n := by
      by_contra h
      rw [List.drop_eq_nil_of_le (by simp; omega)] at hl; cases hl
    rw [List.drop_eq_getElem_cons (by simpa using hkn)] at hl
    obtain ⟨hi, hl⟩ := List.cons.inj hl
    simp only [List.getElem_finRange] at hi
    have hik : i.val = k := by rw [hi]; rfl
    subst hik
    unfold gaussTriangular
    dsimp only
    have I1 := pivot_inv I
    by_cases h0 : (gaussPivot s i).a ((gaussPivot s i).p i) i = 0
    · rw [if_pos h0]
      obtain ⟨he, hz⟩ := pivot_zero h0
      refine ⟨_, _, rfl, hkn.le, I1, ?_⟩
      intro i' hi' r hr
      obtain rfl : i' = i := Fin.ext hi'
      rw [he]; simp [A', hz r hr]
    · rw [if_neg h0]
      obtain ⟨t, ht, htR, hinv⟩ := inv_spec hm (I1.ra _ i) h0
      rw [ht, Res.bind_ok]
      obtain ⟨I2, hii⟩ := scale_spec hm I1 htR hinv
      obtain ⟨s3, hs3, I3⟩ := elim_spec hm (afterIdx i) _ (fun j hj => mem_afterIdx.1 hj) I2 hii
        (fun r hr hn => absurd (mem_afterIdx.2 hr) hn)
      rw [hs3, Res.bind_ok]
      exact triangular_spec hm l (i.val + 1) s3 hl (by omega) I3

/-! ### back substitution -/

/-- One row of the back substitution. -/
theorem back_row (hm : m ≤ 2147483647) {p : Fin n → Fin n} (hp : Function.Injective p)
    {a : Fin n → Fin n → Int} (ha : ∀ r c, InR m (a r c)) (i : Fin n) :
    ∀ (l : List (Fin n)) (b : Fin n → Int), (∀ j ∈ l, i < j) → (∀ r, InR m (b r)) →
    ∃ b', l.foldlM (fun (s : GState n) j => do
        let y ← subMod (s.b (s.p i)) (mulMod (s.a (s.p i) j) (s.b (s.p j)) m) m
        return s.setB (s.p i) y) ⟨a, b, p⟩ = .ok ⟨a, b', p⟩ ∧ (∀ r, InR m (b' r)) ∧
      (∀ r, r ≠ i → b' (p r) = b (p r)) ∧
      ((b' (p i) : Int) : ZMod m) = b (p i) - (l.map fun j => (a (p i) j : ZMod m) * b (p j)).sum
  | [], b, _, hb => ⟨b, rfl, hb, fun _ _ => rfl, by simp⟩
  | j :: l, b, hl, hb => by
    obtain ⟨h1, h2⟩ := mulMod_spec hm (ha (p i) j).1 (hb (p j)).1
    obtain ⟨d, hd, hdR, hde⟩ := subMod_spec hm (hb (p i)) h1
    rw [List.foldlM_cons]
    dsimp only
    rw [hd, Res.bind_ok]
    have hb1 : ∀ r, InR m (Function.update b (p i) d r) := by
      intro r
      by_cases hr : r = p i
      · subst hr; rw [Function.update_self]; exact hdR
      · rw [Function.update_of_ne hr]; exact hb r
    obtain ⟨b', hf, hR, ho, hs⟩ := back_row hm hp ha i l (Function.update b (p i) d)
      (fun k hk => hl k (by simp [hk])) hb1
    refine ⟨b', hf, hR, ?_, ?_⟩
    · intro r hr
      rw [ho r hr, Function.update_of_ne (fun h => hr (hp h))]
    · rw [hs, Function.update_self, hde, h2]
      have : ∀ k ∈ l, ((Function.update b (p i) d (p k) : Int) : ZMod m) = b (p k) := fun k hk => by
        rw [Function.update_of_ne (fun h => (ne_of_lt (hl k (by simp [hk]))) (hp h).symm)]
      rw [List.map_congr_left (fun k hk => by rw [this k hk]), List.map_cons, List.sum_cons]
      ring

theorem sum_afterIdx (f : Fin n → ZMod m) (i : Fin n) :
    ((afterIdx i).map f).sum = ∑ c with i < c, f c := by
  rw [← List.sum_toFinset f (nodup_afterIdx i)]
  congr 1
  ext c; simp [mem_afterIdx]

/-- The loop of the back substitution, for the rows of a list in descending order. -/
theorem back_loop (hm : m ≤ 2147483647) {p : Fin n → Fin n} (hp : Function.Injective p)
    {a : Fin n → Fin n → Int} (ha : ∀ r c, InR m (a r c)) :
    ∀ (k : Nat) (b : Fin n → Int), k ≤ n → (∀ r, InR m (b r)) →
    ∃ b', ((List.finRange n).take k).reverse.foldlM (fun (s : GState n) i =>
      (afterIdx i).foldlM (fun s j => do
      let y ← subMod (s.b (s.p i)) (mulMod (s.a (s.p i) j) (s.b (s.p j)) m) m
      return s.setB (s.p i) y) s) ⟨a, b, p⟩ = .ok ⟨a, b', p⟩ ∧ (∀ r, InR m (b' r)) ∧
      (∀ r : Fin n, k ≤ r.val → b' (p r) = b (p r)) ∧
      ∀ r : Fin n, r.val < k → (b' (p r) : ZMod m) =
        b (p r) - ∑ c with r < c, (a (p r) c : ZMod m) * b' (p c)
  | 0, b, _, hb => ⟨b, rfl, hb, fun _ _ => rfl, fun r hr => by omega⟩
  | k + 1, b, hk, hb => by
    have e : (List.finRange n).take (k + 1) = (List.finRange n).take k ++ [⟨k, hk⟩] := by
      rw [List.take_succ_eq_append_getElem (by simpa using hk)]; simp
    obtain ⟨b1, h1, hR1, ho1, hs1⟩ := back_row hm hp ha ⟨k, hk⟩ (afterIdx ⟨k, hk⟩) b
      (fun j hj => mem_afterIdx.1 hj) hb
    obtain ⟨b2, h2, hR2, ho2, hs2⟩ := back_loop hm hp ha k b1 (by omega) hR1
    refine ⟨b2, ?_, hR2, ?_, ?_⟩
    · rw [e, List.reverse_append, List.reverse_singleton, List.singleton_append, List.foldlM_cons]
      rw [h1, Res.bind_ok]; exact h2
    · intro r hr
      rw [ho2 r (by omega), ho1 r (by rintro rfl; simp at hr)]
    · intro r hr
      by_cases hrk : r.val < k
      · rw [hs2 r hrk, ho1 r (by rintro rfl; simp at hrk)]
      · obtain rfl : r = ⟨k, hk⟩ := Fin.ext (by simp; omega)
        rw [ho2 _ (by simp), hs1, sum_afterIdx]
        congr 1
        refine Finset.sum_congr rfl fun c hc => ?_
        rw [ho2 c (by have := (Finset.mem_filter.1 hc).2; rw [Fin.lt_def] at this; simp at this; omega),
          ho1 c (by have := (Finset.mem_filter.1 hc).2; exact ne_of_gt this)]

/-- A sum split at index `r`. -/
theorem sum_split (f : Fin n → ZMod m) (r : Fin n) :
    ∑ c, f c = ∑ c with c < r, f c + f r + ∑ c with r < c, f c := by
  rw [← Finset.sum_filter_add_sum_filter_not Finset.univ (· < r)]
  rw [add_assoc]
  congr 1
  rw [← Finset.sum_filter_add_sum_filter_not (Finset.univ.filter fun c => ¬ c < r) (· = r)]
  congr 1
  · rw [Finset.filter_filter]
    rw [show (Finset.univ.filter fun c : Fin n => ¬ c < r ∧ c = r) = {r} by
      ext c; simp; rintro rfl; exact le_rfl]
    simp
  · rw [Finset.filter_filter]
    refine Finset.sum_congr ?_ fun _ _ => rfl
    ext c; simp
    constructor
    · rintro ⟨h1, h2⟩; exact lt_of_le_of_ne h1 (Ne.symm h2)
    · intro h; exact ⟨h.le, ne_of_gt h⟩

/-- The initial state. -/
def ginit (a : Fin n → Fin n → Int) (b : Fin n → Int) : GState n := ⟨a, b, id⟩

omit [Fact m.Prime] in
theorem ginit_inv {a : Fin n → Fin n → Int} {b : Fin n → Int} (ha : ∀ r c, InR m (a r c))
    (hb : ∀ r, InR m (b r)) : GInv m (ginit a b) 0 (ginit a b) :=
  ⟨Function.injective_id, ha, hb, fun r hr => by omega, fun r c hc => by omega, fun _ _ => Iff.rfl⟩

/-- Everything about `gauss`: there is a rank and a reduced system; it throws exactly if the reduced
right hand side does not vanish below the rank. -/
theorem gauss_main (hm : m ≤ 2147483647) {a : Fin n → Fin n → Int} {b : Fin n → Int}
    (ha : ∀ r c, InR m (a r c)) (hb : ∀ r, InR m (b r)) :
    ∃ rank s, rank ≤ n ∧ GInv m (ginit a b) rank s ∧
      (∀ i : Fin n, i.val = rank → ∀ r, i ≤ r → A' m s r i = 0) ∧
      ((∃ i : Fin n, rank ≤ i.val ∧ B' m s i ≠ 0) → gauss a b m = .throws) ∧
      ((∀ i : Fin n, rank ≤ i.val → B' m s i = 0) → ∃ x, gauss a b m = .ok x ∧ (∀ i, InR m (x i)) ∧
        (∀ i : Fin n, rank ≤ i.val → x i = 0) ∧
        ∀ r, ∑ c, (a r c : ZMod m) * (x c : ZMod m) = b r) := by
  obtain ⟨rank, s, hs, hr, I, hz⟩ := triangular_spec hm (s0 := ginit a b) (List.finRange n) 0 (ginit a b)
    (by simp) (by omega) (ginit_inv ha hb)
  refine ⟨rank, s, hr, I, hz, ?_, ?_⟩
  · rintro ⟨i, hi, hne⟩
    unfold gauss
    have : gaussTriangular m (List.finRange n) 0 ⟨a, b, id⟩ = .ok (rank, s) := hs
    rw [this, Res.bind_ok]
    dsimp only
    unfold gaussCheck
    rw [if_pos ⟨i, hi, fun h => hne (by simp [B', h])⟩, Res.bind_throws]
  · intro hB
    have hB0 : ∀ i : Fin n, rank ≤ i.val → s.b (s.p i) = 0 := fun i hi =>
      (I.rb _).cast_eq_zero.1 (hB i hi)
    obtain ⟨b', hb', hR, -, hsub⟩ := back_loop hm I.inj I.ra n s.b le_rfl I.rb
    have hval : gauss a b m = .ok (fun i => b' (s.p i)) := by
      unfold gauss
      have : gaussTriangular m (List.finRange n) 0 ⟨a, b, id⟩ = .ok (rank, s) := hs
      rw [this, Res.bind_ok]
      dsimp only
      unfold gaussCheck
      rw [if_neg (by rintro ⟨i, hi, hne⟩; exact hne (hB0 i hi)), Res.bind_ok]
      unfold gaussBack
      have e : (List.finRange n).take n = List.finRange n := List.take_of_length_le (by simp)
      rw [e] at hb'
      rw [hb', Res.bind_ok]; rfl
    -- rows at and below the rank give zero
    have hz0 : ∀ d : Nat, ∀ i : Fin n, n ≤ i.val + d → rank ≤ i.val → b' (s.p i) = 0 := by
      intro d
      induction d with
      | zero => intro i h; omega
      | succ d ih =>
        intro i hd hi
        rw [← (hR (s.p i)).cast_eq_zero, hsub i i.isLt, hB0 i hi]
        rw [Finset.sum_eq_zero, Int.cast_zero, sub_zero]
        intro c hc
        have hc' := (Finset.mem_filter.1 hc).2
        rw [Fin.lt_def] at hc'
        rw [ih c (by omega) (by omega), Int.cast_zero, mul_zero]
    have hz0 : ∀ i : Fin n, rank ≤ i.val → b' (s.p i) = 0 := fun i hi => hz0 n i (by omega) hi
    refine ⟨_, hval, fun i => hR _, hz0, ?_⟩
    have hS : Sol m s (fun c => ((b' (s.p c) : Int) : ZMod m)) 1 := by
      intro r
      dsimp only
      rw [one_mul]
      by_cases hrr : r.val < rank
      · rw [sum_split _ r, Finset.sum_eq_zero, I.diag r hrr, hsub r r.isLt]
        · simp only [A', B']; ring
        · intro c hc
          have hc' := (Finset.mem_filter.1 hc).2
          rw [I.low r c (by rw [Fin.lt_def] at hc'; omega) hc', zero_mul]
      · rw [hB r (by omega)]
        refine Finset.sum_eq_zero fun c _ => ?_
        by_cases hc : c.val < rank
        · rw [I.low r c hc (by rw [Fin.lt_def]; omega), zero_mul]
        · rw [hz0 c (by omega), Int.cast_zero, mul_zero]
    have := (I.sol _ 1).1 hS
    intro r
    have h := this r
    rw [one_mul] at h
    exact h

/-- At the break there is a kernel vector supported on the columns up to the rank. -/
theorem kernel_at_break {s0 s : GState n} {rank : Nat} (I : GInv m s0 rank s) (i : Fin n)
    (hi : i.val = rank) (hz : ∀ r, i ≤ r → A' m s r i = 0) :
    ∃ x : Fin n → ZMod m, x i = 1 ∧ (∀ c, i < c → x c = 0) ∧ Sol m s0 x 0 := by
  have H : ∀ d : Nat, d ≤ rank → ∃ x : Fin n → ZMod m, x i = 1 ∧ (∀ c, i < c → x c = 0) ∧
      ∀ r : Fin n, rank - d ≤ r.val → r.val < rank → x r + ∑ c with r < c, A' m s r c * x c = 0 := by
    intro d
    induction d with
    | zero =>
      intro _
      refine ⟨fun c => if c = i then 1 else 0, by simp, fun c hc => by simp [ne_of_gt hc], fun r h1 h2 => by omega⟩
    | succ d ih =>
      intro hd
      obtain ⟨x, hx1, hx2, hx3⟩ := ih (by omega)
      let k : Fin n := ⟨rank - (d + 1), by have := i.isLt; omega⟩
      refine ⟨Function.update x k (-∑ c with k < c, A' m s k c * x c), ?_, ?_, ?_⟩
      · rw [Function.update_of_ne]; exact hx1
        intro h; have := congrArg Fin.val h; simp [k] at this; omega
      · intro c hc
        rw [Function.update_of_ne]; exact hx2 c hc
        rintro rfl; rw [Fin.lt_def] at hc; simp [k] at hc; omega
      · intro r h1 h2
        have hsum : ∑ c with r < c, A' m s r c * Function.update x k (-∑ c with k < c, A' m s k c * x c) c =
            ∑ c with r < c, A' m s r c * x c := by
          refine Finset.sum_congr rfl fun c hc => ?_
          have hc' := (Finset.mem_filter.1 hc).2
          rw [Function.update_of_ne]
          rintro rfl; rw [Fin.lt_def] at hc'; simp [k] at hc'; omega
        rw [hsum]
        by_cases hrk : r = k
        · subst hrk; rw [Function.update_self]; ring
        · rw [Function.update_of_ne hrk]
          have : r.val ≠ rank - (d + 1) := fun h => hrk (Fin.ext h)
          exact hx3 r (by omega) h2
  obtain ⟨x, hx1, hx2, hx3⟩ := H rank le_rfl
  refine ⟨x, hx1, hx2, (I.sol x 0).1 ?_⟩
  intro r
  rw [zero_mul]
  by_cases hr : r.val < rank
  · rw [sum_split _ r, Finset.sum_eq_zero, I.diag r hr]
    · have := hx3 r (by omega) hr
      linear_combination this
    · intro c hc
      have hc' := (Finset.mem_filter.1 hc).2
      rw [I.low r c (by rw [Fin.lt_def] at hc'; omega) hc', zero_mul]
  · refine Finset.sum_eq_zero fun c _ => ?_
    by_cases hc : c.val < rank
    · rw [I.low r c hc (by rw [Fin.lt_def]; omega), zero_mul]
    · by_cases hci : c = i
      · subst hci; rw [hz r (by rw [Fin.le_def]; omega), zero_mul]
      · rw [hx2 c (by rw [Fin.lt_def]; have : c.val ≠ i.val := fun h => hci (Fin.ext h); omega), mul_zero]

/-- The columns before the rank are independent. -/
theorem independent_before_rank {s0 s : GState n} {rank : Nat} (I : GInv m s0 rank s)
    (x : Fin n → ZMod m) (hx : ∀ c : Fin n, rank ≤ c.val → x c = 0) (h : Sol m s0 x 0) : x = 0 := by
  have hS := (I.sol x 0).2 h
  have H : ∀ d : Nat, ∀ r : Fin n, n ≤ r.val + d → x r = 0 := by
    intro d
    induction d with
    | zero => intro r h; omega
    | succ d ih =>
      intro r hd
      by_cases hr : r.val < rank
      · have := hS r
        rw [zero_mul, sum_split _ r, Finset.sum_eq_zero, I.diag r hr, Finset.sum_eq_zero] at this
        · simpa using this
        · intro c hc
          have hc' := (Finset.mem_filter.1 hc).2
          rw [Fin.lt_def] at hc'
          rw [ih c (by omega), mul_zero]
        · intro c hc
          have hc' := (Finset.mem_filter.1 hc).2
          rw [I.low r c (by rw [Fin.lt_def] at hc'; omega) hc', zero_mul]
      · exact hx r (by omega)
  funext r
  exact H n r (by omega)

/-- `gauss` succeeds if there is a solution supported on the first `k` columns and these are linearly
independent; the result is then this solution. -/
theorem gauss_complete (hm : m ≤ 2147483647) {a : Fin n → Fin n → Int} {b : Fin n → Int}
    (ha : ∀ r c, InR m (a r c)) (hb : ∀ r, InR m (b r)) (k : Nat)
    (hind : ∀ x : Fin n → ZMod m, (∀ c : Fin n, k ≤ c.val → x c = 0) →
      (∀ r, ∑ c, (a r c : ZMod m) * x c = 0) → x = 0)
    (z : Fin n → ZMod m) (hz : ∀ c : Fin n, k ≤ c.val → z c = 0)
    (hsol : ∀ r, ∑ c, (a r c : ZMod m) * z c = b r) :
    ∃ x, gauss a b m = .ok x ∧ (∀ i, InR m (x i)) ∧ ∀ c, (x c : ZMod m) = z c := by
  obtain ⟨rank, s, hr, I, hp, -, hok⟩ := gauss_main hm ha hb
  have hk : rank < n → k ≤ rank := by
    intro hrn
    by_contra hlt
    obtain ⟨x, hx1, hx2, hx3⟩ := kernel_at_break I ⟨rank, hrn⟩ rfl (hp ⟨rank, hrn⟩ rfl)
    have : x = 0 := by
      refine hind x (fun c hc => hx2 c (by rw [Fin.lt_def]; simp; omega)) fun r => ?_
      have := hx3 r
      rw [zero_mul] at this; exact this
    rw [this] at hx1; exact zero_ne_one hx1
  suffices h : ∀ i : Fin n, rank ≤ i.val → B' m s i = 0 by
    obtain ⟨x, h1, h2, h3, h4⟩ := hok h
    refine ⟨x, h1, h2, fun c => ?_⟩
    have := independent_before_rank I (fun c => (x c : ZMod m) - z c) (fun c hc => by
      rw [h3 c hc, hz c (le_trans (hk (lt_of_le_of_lt hc c.isLt)) hc)]; simp) (fun r => by
      have : ∑ c, (a r c : ZMod m) * ((x c : ZMod m) - z c) = 0 := by
        simp only [mul_sub, Finset.sum_sub_distrib]
        rw [h4 r, hsol r, sub_self]
      rw [zero_mul]; exact this)
    exact sub_eq_zero.1 (congrFun this c)
  intro i hi
  have hk := hk (lt_of_le_of_lt hi i.isLt)
  have h := (I.sol z 1).2 (fun r => by rw [one_mul]; exact hsol r) i
  rw [one_mul] at h
  rw [← h]
  refine Finset.sum_eq_zero fun c _ => ?_
  by_cases hc : c.val < rank
  · rw [I.low i c hc (by rw [Fin.lt_def]; omega), zero_mul]
  · rw [hz c (by omega), mul_zero]

end Trng.IntMath
