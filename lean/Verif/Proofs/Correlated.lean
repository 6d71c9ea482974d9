import Verif.Model.Correlated
import Mathlib.LinearAlgebra.Matrix.PosDef
import Mathlib.LinearAlgebra.Matrix.Block
import Mathlib.LinearAlgebra.Matrix.NonsingularInverse
import Mathlib.Algebra.BigOperators.Intervals

/-! The factorisation loop of `correlated_normal_dist`. -/
namespace Trng.Correlated
open XR Discrete

/-- A matrix, row by row. -/
noncomputable def flatN (d : Nat) (H : ℕ → ℕ → ℝ) : List XR := (List.range (d * d)).map fun q => fin (H (q / d) (q % d))

theorem idx_lt {d i k : Nat} (hi : i < d) (hk : k < d) : i * d + k < d * d := by
  calc i * d + k < i * d + d := by omega
    _ = (i + 1) * d := by ring
    _ ≤ d * d := Nat.mul_le_mul_right d hi

theorem idx_div {d i k : Nat} (hk : k < d) : (i * d + k) / d = i := by
  rw [Nat.add_comm, Nat.add_mul_div_right _ _ (by omega), Nat.div_eq_of_lt hk, Nat.zero_add]

theorem idx_mod {d i k : Nat} (hk : k < d) : (i * d + k) % d = k := by
  rw [Nat.add_comm, Nat.add_mul_mod_self_right, Nat.mod_eq_of_lt hk]

theorem flatN_get {d : Nat} (H : ℕ → ℕ → ℝ) {i k : Nat} (hi : i < d) (hk : k < d) :
    (flatN d H)[i * d + k]? = some (fin (H i k)) := by
  simp [flatN, List.getElem?_map, List.getElem?_range (idx_lt hi hk), idx_div hk, idx_mod hk]

/-- The matrix with one entry changed. -/
def upd (H : ℕ → ℕ → ℝ) (i k : Nat) (v : ℝ) : ℕ → ℕ → ℝ := fun r c => if r = i ∧ c = k then v else H r c

theorem flatN_set {d : Nat} (H : ℕ → ℕ → ℝ) {i k : Nat} (hi : i < d) (hk : k < d) (v : ℝ) :
    set? (flatN d H) (i * d + k) (fin v) = some (flatN d (upd H i k v)) := by
  have hl : i * d + k < (flatN d H).length := by simpa [flatN] using idx_lt hi hk
  rw [set?, if_pos hl]
  congr 1
  apply List.ext_getElem
  · simp [flatN]
  · intro q h1 h2
    have hq : q < d * d := by simpa [flatN] using h2
    have hd : 0 < d := by omega
    simp only [flatN, List.getElem_set, List.getElem_map, List.getElem_range, upd]
    by_cases e : i * d + k = q
    · subst e; simp [idx_div hk, idx_mod hk]
    · rw [if_neg e, if_neg]
      rintro ⟨a, b⟩
      apply e
      rw [← a, ← b, Nat.div_add_mod']

theorem dot_flatN {d : Nat} (H : ℕ → ℕ → ℝ) {i k : Nat} (hi : i < d) (hk : k < d) (n : Nat) (hn : n ≤ d) :
    dot (flatN d H) (i * d) (k * d) n = some (fin (∑ j ∈ Finset.range n, H i j * H k j)) := by
  induction n with
  | zero => simp [dot]
  | succ n ih =>
    rw [dot, ih (by omega), Option.bind_some, flatN_get H hi (by omega), Option.bind_some, flatN_get H hk (by omega),
      Option.map_some, fin_mul, fin_add, Finset.sum_range_succ]

/-- What holds after the elimination loop has done `k` steps in row `i`. -/
theorem eliminate_flatN {d : Nat} (V : ℕ → ℕ → ℝ) {i : Nat} (hi : i < d) (hpos : ∀ r < i, V r r ≠ 0) (k : Nat) (hk : k ≤ i) :
    ∃ H : ℕ → ℕ → ℝ, eliminate d i (flatN d V) k = some (flatN d H) ∧
      (∀ r c, r ≠ i → H r c = V r c) ∧ (∀ c, k ≤ c → H i c = V i c) ∧
      (∀ c < k, ∑ j ∈ Finset.range c, H i j * V c j + H i c * V c c = V i c) := by
  induction k with
  | zero => exact ⟨V, rfl, fun _ _ _ => rfl, fun _ _ => rfl, fun _ h => absurd h (by omega)⟩
  | succ k ih =>
    obtain ⟨H, e, h1, h2, h3⟩ := ih (by omega)
    have hkk : H k k ≠ 0 := by rw [h1 k k (by omega)]; exact hpos k (by omega)
    refine ⟨upd H i k ((H i k - ∑ j ∈ Finset.range k, H i j * H k j) / H k k), ?_, ?_, ?_, ?_⟩
    · rw [eliminate, e, Option.bind_some, dot_flatN H hi (by omega) k (by omega), Option.bind_some,
        flatN_get H hi (by omega), Option.bind_some, flatN_get H (by omega) (by omega), Option.bind_some, fin_sub,
        fin_div hkk, flatN_set H hi (by omega)]
    · intro r c hr; simp [upd, hr, h1 r c hr]
    · intro c hc
      have : c ≠ k := by omega
      simp [upd, this, h2 c (by omega)]
    · intro c hc
      rcases Nat.lt_succ_iff_lt_or_eq.1 hc with hc | rfl
      · have e1 : ∀ j ∈ Finset.range c, upd H i k ((H i k - ∑ j ∈ Finset.range k, H i j * H k j) / H k k) i j * V c j
            = H i j * V c j := by
          intro j hj; rw [Finset.mem_range] at hj
          have : j ≠ k := by omega
          simp [upd, this]
        have : c ≠ k := by omega
        rw [Finset.sum_congr rfl e1]
        simpa [upd, this] using h3 c hc
      · have e1 : ∀ j ∈ Finset.range c, upd H i c ((H i c - ∑ j ∈ Finset.range c, H i j * H c j) / H c c) i j * V c j
            = H i j * H c j := by
          intro j hj; rw [Finset.mem_range] at hj
          have : j ≠ c := by omega
          rw [h1 c j (by omega)]
          simp [upd, this]
        rw [Finset.sum_congr rfl e1]
        have : upd H i c ((H i c - ∑ j ∈ Finset.range c, H i j * H c j) / H c c) i c
          = (H i c - ∑ j ∈ Finset.range c, H i j * H c j) / H c c := by simp [upd]
        rw [this, ← h1 c c (by omega), div_mul_cancel₀ _ hkk, h2 c le_rfl]; ring

theorem clear_flatN {d : Nat} (V : ℕ → ℕ → ℝ) {i : Nat} (n : Nat) (hn : i + 1 + n ≤ d) :
    clear d i (flatN d V) n
      = some (flatN d fun r c => if r = i ∧ i < c ∧ c < i + 1 + n then 0 else V r c) := by
  induction n with
  | zero =>
    rw [clear]; congr 2; funext r c
    rw [if_neg (by omega)]
  | succ n ih =>
    rw [clear, ih (by omega), Option.bind_some, show (0 : XR) = fin 0 by simp, flatN_set _ (by omega) (by omega)]
    congr 2; funext r c
    by_cases h : r = i ∧ c = i + 1 + n
    · simp only [upd, if_pos h]; rw [if_pos (by omega)]
    · simp only [upd, if_neg h]
      by_cases h' : r = i ∧ i < c ∧ c < i + 1 + n
      · rw [if_pos h', if_pos (by omega)]
      · rw [if_neg h', if_neg (by omega)]

/-- The rows up to `i` are those of a lower triangular matrix with positive diagonal whose square is `V`, the others are
those of `V`. -/
structure Done (d : Nat) (V H : ℕ → ℕ → ℝ) (i : Nat) : Prop where
  rest : ∀ r c, i ≤ r → H r c = V r c
  pos : ∀ r < i, 0 < H r r
  zero : ∀ r < i, ∀ c, r < c → c < d → H r c = 0
  prod : ∀ r < i, ∀ c ≤ r, ∑ j ∈ Finset.range (c + 1), H r j * H c j = V r c

/-- Strict positivity of the quadratic form. -/
def PosForm (d : Nat) (V : ℕ → ℕ → ℝ) : Prop :=
  ∀ x : ℕ → ℝ, (∃ i < d, x i ≠ 0) → 0 < ∑ r ∈ Finset.range d, ∑ c ∈ Finset.range d, x r * V r c * x c

/-- A triangular system with non-zero diagonal has a solution. -/
theorem solve (L : ℕ → ℕ → ℝ) (i : Nat) (hp : ∀ r < i, L r r ≠ 0) (b : ℕ → ℝ) :
    ∃ w : ℕ → ℝ, (∀ r, i ≤ r → w r = 0) ∧ ∀ j < i, ∑ r ∈ Finset.Ico j i, L r j * w r = b j := by
  induction i generalizing b with
  | zero => exact ⟨fun _ => 0, fun _ _ => rfl, fun j h => absurd h (by omega)⟩
  | succ i ih =>
    obtain ⟨w, h0, h⟩ := ih (fun r hr => hp r (by omega)) (fun j => b j - L i j * (b i / L i i))
    refine ⟨fun r => if r = i then b i / L i i else w r, ?_, ?_⟩
    · intro r hr
      have : r ≠ i := by omega
      simp [this, h0 r (by omega)]
    · intro j hj
      rw [Finset.sum_Ico_succ_top (by omega)]
      have hii := hp i (by omega)
      beta_reduce
      rw [if_pos rfl]
      rcases Nat.lt_succ_iff_lt_or_eq.1 hj with hj | rfl
      · have e : ∀ r ∈ Finset.Ico j i, L r j * (if r = i then b i / L i i else w r) = L r j * w r := by
          intro r hr
          have : r ≠ i := by rw [Finset.mem_Ico] at hr; omega
          rw [if_neg this]
        rw [Finset.sum_congr rfl e, h j hj]; ring
      · simp; field_simp

/-- The number under the square root is positive. -/
theorem pivot_pos {d : Nat} {V L : ℕ → ℕ → ℝ} (hV : PosForm d V) (hs : ∀ r c, V r c = V c r) {i : Nat} (hi : i < d)
    (hp : ∀ r < i, 0 < L r r) (hz : ∀ r < i, ∀ c, r < c → c < d → L r c = 0)
    (hL : ∀ r < i, ∀ c ≤ r, ∑ j ∈ Finset.range (c + 1), L r j * L c j = V r c)
    (h : ℕ → ℝ) (hh : ∀ c < i, ∑ j ∈ Finset.range (c + 1), h j * L c j = V i c) :
    0 < V i i - ∑ j ∈ Finset.range i, h j * h j := by
  obtain ⟨w, w0, hw⟩ := solve L i (fun r hr => (hp r hr).ne') h
  -- sums over the whole range
  have full : ∀ (f : ℕ → ℝ) c, c < i → ∑ j ∈ Finset.range i, f j * L c j = ∑ j ∈ Finset.range (c + 1), f j * L c j := by
    intro f c hc
    symm
    apply Finset.sum_subset (Finset.range_subset_range.2 (by omega))
    intro j hj hj'
    rw [Finset.mem_range] at hj hj'
    rw [hz c hc j (by omega) (by omega), mul_zero]
  have hV1 : ∀ r < i, ∀ c < i, V r c = ∑ j ∈ Finset.range i, L r j * L c j := by
    intro r hr c hc
    rcases le_total c r with hcr | hcr
    · rw [← hL r hr c hcr, full (L r) c hc]
    · rw [hs, ← hL c hc r hcr, ← full (L c) r hr]
      exact Finset.sum_congr rfl fun j _ => mul_comm _ _
  have hV2 : ∀ c < i, V i c = ∑ j ∈ Finset.range i, h j * L c j := fun c hc => by rw [← hh c hc, full h c hc]
  have hw1 : ∀ j < i, ∑ r ∈ Finset.range i, w r * L r j = h j := by
    intro j hj
    rw [← hw j hj, Finset.range_eq_Ico, ← Finset.sum_Ico_consecutive _ (Nat.zero_le j) hj.le]
    rw [Finset.sum_eq_zero (s := Finset.Ico 0 j), zero_add]
    · exact Finset.sum_congr rfl fun r _ => mul_comm _ _
    · intro r hr
      rw [Finset.mem_Ico] at hr
      rw [hz r (by omega) j hr.2 (by omega), mul_zero]
  -- the vector to test with
  have hq := hV (fun r => if r = i then 1 else -w r) ⟨i, hi, by simp⟩
  have cut : ∀ f : ℕ → ℝ, (∀ r, i < r → f r = 0) → ∑ r ∈ Finset.range d, f r = ∑ r ∈ Finset.range i, f r + f i := by
    intro f hf
    rw [← Finset.sum_range_succ]
    symm
    apply Finset.sum_subset (Finset.range_subset_range.2 (by omega))
    intro j hj hj'
    rw [Finset.mem_range] at hj hj'
    exact hf j (by omega)
  have xz : ∀ r, i < r → (if r = i then (1 : ℝ) else -w r) = 0 := by
    intro r hr
    rw [if_neg (by omega), w0 r (by omega), neg_zero]
  have xi : ∀ r ∈ Finset.range i, (if r = i then (1 : ℝ) else -w r) = -w r := by
    intro r hr
    rw [Finset.mem_range] at hr
    rw [if_neg (by omega)]
  have inner : ∀ r, ∑ c ∈ Finset.range d, (if r = i then (1 : ℝ) else -w r) * V r c * (if c = i then (1 : ℝ) else -w c)
      = (if r = i then (1 : ℝ) else -w r) * (V r i - ∑ c ∈ Finset.range i, w c * V r c) := by
    intro r
    rw [cut _ (fun c hc => by rw [xz c hc, mul_zero]), if_pos (rfl : i = i)]
    rw [Finset.sum_congr rfl (fun c hc => by rw [xi c hc])]
    rw [mul_sub, Finset.mul_sum, sub_eq_add_neg, ← Finset.sum_neg_distrib, mul_one, add_comm]
    congr 1
    exact Finset.sum_congr rfl fun c _ => by ring
  rw [Finset.sum_congr rfl (fun r _ => inner r), cut _ (fun r hr => by rw [xz r hr, zero_mul]), if_pos (rfl : i = i)] at hq
  rw [Finset.sum_congr rfl (fun r hr => by rw [xi r hr])] at hq
  have s1 : ∑ c ∈ Finset.range i, w c * V i c = ∑ j ∈ Finset.range i, h j * h j := by
    rw [Finset.sum_congr rfl (fun c hc => by rw [hV2 c (Finset.mem_range.1 hc), Finset.mul_sum]), Finset.sum_comm]
    apply Finset.sum_congr rfl
    intro j hj
    nth_rw 3 [← hw1 j (Finset.mem_range.1 hj)]
    rw [Finset.mul_sum]
    exact Finset.sum_congr rfl fun c _ => by ring
  have s2 : ∀ r ∈ Finset.range i, -w r * (V r i - ∑ c ∈ Finset.range i, w c * V r c) = 0 := by
    intro r hr
    have hr' := Finset.mem_range.1 hr
    have : ∑ c ∈ Finset.range i, w c * V r c = V r i := by
      rw [Finset.sum_congr rfl (fun c hc => by rw [hV1 r hr' c (Finset.mem_range.1 hc), Finset.mul_sum]), Finset.sum_comm,
        hs, hV2 r hr']
      apply Finset.sum_congr rfl
      intro j hj
      rw [← hw1 j (Finset.mem_range.1 hj), Finset.sum_mul]
      exact Finset.sum_congr rfl fun c _ => by ring
    rw [this, sub_self, mul_zero]
  rw [Finset.sum_eq_zero s2, zero_add, one_mul, s1] at hq
  exact hq

/-- One row more. -/
theorem row_done {d : Nat} {V H : ℕ → ℕ → ℝ} (hV : PosForm d V) (hs : ∀ r c, V r c = V c r) {i : Nat} (hi : i < d)
    (hd : Done d V H i) : ∃ H', row d i (flatN d H) = some (flatN d H') ∧ Done d V H' (i + 1) := by
  obtain ⟨E, e, h1, h2, h3⟩ := eliminate_flatN H hi (fun r hr => (hd.pos r hr).ne') i le_rfl
  have hrow : ∀ c < i, ∑ j ∈ Finset.range (c + 1), E i j * H c j = V i c := by
    intro c hc
    rw [Finset.sum_range_succ, h3 c hc, hd.rest i c le_rfl]
  have hpiv := pivot_pos hV hs hi hd.pos hd.zero hd.prod (E i) hrow
  have hEi : E i i = V i i := by rw [h2 i le_rfl, hd.rest i i le_rfl]
  set s := Real.sqrt (V i i - ∑ j ∈ Finset.range i, E i j * E i j) with hsdef
  have hspos : 0 < s := Real.sqrt_pos.2 hpiv
  have hss : s * s = V i i - ∑ j ∈ Finset.range i, E i j * E i j := Real.mul_self_sqrt hpiv.le
  let H' : ℕ → ℕ → ℝ := fun r c => if r = i ∧ i < c ∧ c < i + 1 + (d - (i + 1)) then 0 else upd E i i s r c
  have a1 : ∀ r c, r ≠ i → H' r c = H r c := by
    intro r c hr
    simp only [H', upd]
    rw [if_neg (by omega), if_neg (by omega), h1 r c hr]
  have a2 : ∀ c < i, H' i c = E i c := by
    intro c hc
    simp only [H', upd]
    rw [if_neg (by omega), if_neg (by omega)]
  have a3 : H' i i = s := by
    simp only [H', upd]
    rw [if_neg (by omega), if_pos (by simp)]
  refine ⟨H', ?_, ?_, ?_, ?_, ?_⟩
  · rw [row, e, Option.bind_some, dot_flatN E hi hi i (by omega), Option.bind_some, flatN_get E hi hi, Option.bind_some,
      fin_sub, hEi, sqrt_fin hpiv.le, flatN_set E hi hi, Option.bind_some, clear_flatN _ _ (by omega)]
  · intro r c hr
    rw [a1 r c (by omega), hd.rest r c (by omega)]
  · intro r hr
    rcases Nat.lt_succ_iff_lt_or_eq.1 hr with hr | rfl
    · rw [a1 r r (by omega)]; exact hd.pos r hr
    · rw [a3]; exact hspos
  · intro r hr c hc hcd
    rcases Nat.lt_succ_iff_lt_or_eq.1 hr with hr | rfl
    · rw [a1 r c (by omega)]; exact hd.zero r hr c hc hcd
    · exact if_pos ⟨rfl, hc, by omega⟩
  · intro r hr c hc
    rcases Nat.lt_succ_iff_lt_or_eq.1 hr with hr | rfl
    · rw [← hd.prod r hr c hc]
      exact Finset.sum_congr rfl fun j _ => by rw [a1 r j (by omega), a1 c j (by omega)]
    · rcases Nat.lt_or_ge c r with hcr | hcr
      · rw [← hrow c hcr]
        refine Finset.sum_congr rfl fun j hj => ?_
        rw [Finset.mem_range] at hj
        rw [a2 j (by omega), a1 c j (by omega)]
      · obtain rfl : c = r := by omega
        rw [Finset.sum_range_succ, a3, hss]
        have : ∑ j ∈ Finset.range c, H' c j * H' c j = ∑ j ∈ Finset.range c, E c j * E c j :=
          Finset.sum_congr rfl fun j hj => by rw [a2 j (Finset.mem_range.1 hj)]
        rw [this]; ring

theorem rows_done {d : Nat} {V : ℕ → ℕ → ℝ} (hV : PosForm d V) (hs : ∀ r c, V r c = V c r) (i : Nat) (hi : i ≤ d) :
    ∃ H, rows d (flatN d V) i = some (flatN d H) ∧ Done d V H i := by
  induction i with
  | zero => exact ⟨V, rfl, fun _ _ _ => rfl, fun r h => absurd h (by omega), fun r h => absurd h (by omega),
      fun r h => absurd h (by omega)⟩
  | succ i ih =>
    obtain ⟨H, e, hd⟩ := ih (by omega)
    obtain ⟨H', e', hd'⟩ := row_done hV hs (by omega) hd
    exact ⟨H', by rw [rows, e, Option.bind_some, e'], hd'⟩

/-- A matrix indexed by numbers. -/
noncomputable def extend {d : Nat} (V : Matrix (Fin d) (Fin d) ℝ) : ℕ → ℕ → ℝ :=
  fun r c => if h : r < d ∧ c < d then V ⟨r, h.1⟩ ⟨c, h.2⟩ else 0

theorem extend_apply {d : Nat} (V : Matrix (Fin d) (Fin d) ℝ) (i j : Fin d) : extend V i j = V i j := by
  simp [extend]

theorem extend_posForm {d : Nat} {V : Matrix (Fin d) (Fin d) ℝ} (hV : V.PosDef) : PosForm d (extend V) := by
  rintro x ⟨i, hi, hx⟩
  have h := hV.dotProduct_mulVec_pos (x := fun j : Fin d => x j) (fun h => hx (congrFun h ⟨i, hi⟩))
  rw [Finset.sum_range]
  simp only [dotProduct, Matrix.mulVec, star_trivial] at h
  refine lt_of_lt_of_eq h (Finset.sum_congr rfl fun r _ => ?_)
  rw [Finset.sum_range, Finset.mul_sum]
  exact Finset.sum_congr rfl fun c _ => by rw [extend_apply]; ring

theorem extend_symm {d : Nat} {V : Matrix (Fin d) (Fin d) ℝ} (hV : V.PosDef) (r c : ℕ) : extend V r c = extend V c r := by
  have := hV.1
  unfold extend
  by_cases h : r < d ∧ c < d
  · rw [dif_pos h, dif_pos ⟨h.2, h.1⟩]
    have := congrFun (congrFun this ⟨r, h.1⟩) ⟨c, h.2⟩
    simpa using this.symm
  · rw [dif_neg h, dif_neg (fun h' => h ⟨h'.2, h'.1⟩)]

/-- The buffer and the matrix: one component of the product. -/
theorem timesLoop_flatN {d : Nat} (H : ℕ → ℕ → ℝ) (z : ℕ → ℝ) {m : Nat} (hm : m < d) (n : Nat) (hn : n ≤ m + 1) :
    timesLoop ⟨flatN d H, d⟩ ((List.range (m + 1)).map fun j => fin (z j)) (m + 1) n
      = some (fin (∑ j ∈ Finset.range n, H m j * z j)) := by
  induction n with
  | zero => simp [timesLoop]
  | succ n ih =>
    rw [timesLoop, ih (by omega), Option.bind_some]
    simp only [Nat.add_sub_cancel]
    rw [flatN_get H hm (by omega), Option.bind_some, List.getElem?_map, List.getElem?_range (by omega), Option.map_some,
      Option.map_some, fin_mul, fin_add, Finset.sum_range_succ]

theorem draw_flatN {d : Nat} (inv : XR → XR) (H : ℕ → ℕ → ℝ) (z : ℕ → ℝ) {m : Nat} (hm : m < d) {u : XR}
    (hu : inv u = fin (z m)) :
    Dist.draw inv ⟨⟨flatN d H, d⟩, (List.range m).map fun j => fin (z j)⟩ u
      = some (fin (∑ j ∈ Finset.range (m + 1), H m j * z j),
          ⟨⟨flatN d H, d⟩, if m + 1 = d then [] else (List.range (m + 1)).map fun j => fin (z j)⟩) := by
  have e : ((List.range m).map fun j => fin (z j)) ++ [inv u] = (List.range (m + 1)).map fun j => fin (z j) := by
    rw [List.range_succ, List.map_append, hu]; rfl
  simp only [Dist.draw, e, Param.times, List.length_map, List.length_range]
  rw [timesLoop_flatN H z hm (m + 1) le_rfl, Option.map_some]
  by_cases h : m + 1 = d
  · simp [h]
  · simp [h]

theorem succ_mod_cases {n d : Nat} (hd : 0 < d) :
    (n % d + 1 = d ∧ (n + 1) % d = 0 ∧ (n + 1) / d = n / d + 1) ∨
    (n % d + 1 < d ∧ (n + 1) % d = n % d + 1 ∧ (n + 1) / d = n / d) := by
  have h1 := Nat.mod_lt n hd
  have h2 := Nat.div_add_mod n d
  rcases Nat.lt_or_ge (n % d + 1) d with h | h
  · right
    have e : n + 1 = d * (n / d) + (n % d + 1) := by omega
    refine ⟨h, ?_, ?_⟩
    · rw [e, Nat.mul_add_mod, Nat.mod_eq_of_lt h]
    · rw [e, Nat.mul_add_div hd, Nat.div_eq_of_lt h, add_zero]
  · left
    have e : n + 1 = d * (n / d + 1) := by rw [Nat.mul_succ]; omega
    refine ⟨by omega, ?_, ?_⟩
    · rw [e, Nat.mul_mod_right]
    · rw [e, Nat.mul_div_cancel_left _ hd]

theorem draws_append (inv : XR → XR) (D : Dist) (us : List XR) (u : XR) :
    D.draws inv (us ++ [u]) = (D.draws inv us).bind fun s => (s.2.draw inv u).map fun r => (s.1 ++ [r.1], r.2) := by
  induction us generalizing D with
  | nil => simp only [List.nil_append, Dist.draws, Option.bind_some]; cases D.draw inv u <;> rfl
  | cons a us ih =>
    simp only [List.cons_append, Dist.draws]
    cases D.draw inv a with
    | none => rfl
    | some r =>
      simp only [Option.bind_some, ih]
      cases r.2.draws inv us with
      | none => rfl
      | some s =>
        simp only [Option.bind_some, Option.map_some]
        cases s.2.draw inv u <;> rfl

/-- `n` calls. -/
theorem draws_flatN {d : Nat} (hd : 0 < d) (inv : XR → XR) (H : ℕ → ℕ → ℝ) (u : ℕ → XR) (z : ℕ → ℝ) (n : Nat)
    (hu : ∀ k < n, inv (u k) = fin (z k)) :
    (Dist.ofParam ⟨flatN d H, d⟩).draws inv ((List.range n).map u)
      = some ((List.range n).map fun k => fin (∑ j ∈ Finset.range (k % d + 1), H (k % d) j * z (k / d * d + j)),
          ⟨⟨flatN d H, d⟩, (List.range (n % d)).map fun j => fin (z (n / d * d + j))⟩) := by
  induction n with
  | zero => simp [Dist.draws, Dist.ofParam]
  | succ n ih =>
    rw [List.range_succ, List.map_append, List.map_singleton, draws_append, ih (fun k hk => hu k (by omega)),
      Option.bind_some]
    have hz : inv (u n) = fin ((fun j => z (n / d * d + j)) (n % d)) := by
      beta_reduce
      rw [hu n (by omega), Nat.div_add_mod']
    have := draw_flatN inv H (fun j => z (n / d * d + j)) (Nat.mod_lt n hd) hz
    rw [this, Option.map_some, List.map_append, List.map_singleton]
    rcases succ_mod_cases (n := n) hd with ⟨a, b, _⟩ | ⟨a, b, c⟩
    · rw [if_pos a, b]; rfl
    · rw [if_neg (by omega), b, c]

end Trng.Correlated
