import Verif.Props.Distribution

/-! The words of a lagged Fibonacci engine with `^` over a period: sums of signs. -/
namespace Trng.LagFibWords
open LinAlg LagFib

/-- 1 for 0, -1 for 1. -/
def sgn (x : GF2) : ℤ := if x.value then -1 else 1

theorem sgn_zero : sgn 0 = 1 := rfl

theorem sgn_add (x y : GF2) : sgn (x + y) = sgn x * sgn y := by
  rcases x with ⟨_ | _⟩ <;> rcases y with ⟨_ | _⟩ <;> decide

theorem sgn_sq (x : GF2) : sgn x * sgn x = 1 := by rcases x with ⟨_ | _⟩ <;> decide

theorem sgn_sum {ι : Type} (s : Finset ι) (f : ι → GF2) : sgn (∑ i ∈ s, f i) = ∏ i ∈ s, sgn (f i) := by
  classical
  induction s using Finset.induction_on with
  | empty => simp [sgn_zero]
  | insert a s ha ih => rw [Finset.sum_insert ha, Finset.prod_insert ha, sgn_add, ih]

theorem univ_gf2 : (Finset.univ : Finset GF2) = {0, 1} := by
  refine (Finset.eq_of_subset_of_card_le (Finset.subset_univ _) ?_).symm
  rw [Finset.card_univ, show Fintype.card GF2 = 2 from rfl]
  decide

theorem orth {ι : Type} [Fintype ι] [DecidableEq ι] (x : ι → GF2) :
    ∑ c : ι → GF2, sgn (∑ i, c i * x i) = if x = 0 then 2 ^ Fintype.card ι else 0 := by
  have h2 := (Finset.prod_univ_sum (fun _ : ι => (Finset.univ : Finset GF2)) (fun i c => sgn (c * x i))).symm
  rw [Fintype.piFinset_univ] at h2
  have h1 : ∀ i, ∑ c, sgn (c * x i) = if x i = 0 then 2 else 0 := fun i => by
    rw [univ_gf2, Finset.sum_pair (by decide)]
    generalize x i = y
    rcases y with ⟨_ | _⟩ <;> decide
  simp only [sgn_sum]
  rw [h2, Finset.prod_congr rfl fun i _ => h1 i]
  split_ifs with h
  · subst h; simp
  · obtain ⟨i, hi⟩ := Function.ne_iff.1 h
    exact Finset.prod_eq_zero (Finset.mem_univ i) (by rw [if_neg (by simpa using hi)])

variable {P : Params}

theorem sum_period (h : Valid P) (hp : Primitive P) {y : ℕ → GF2} (hy : Sol P y) (hne : ∃ t, y t ≠ 0) (s : ℕ) :
    ∑ k ∈ Finset.range (2 ^ P.last - 1), sgn (y (s + k)) = -1 := by
  classical
  have h2 := h.two_le
  have hw := fun v : {v : Fin P.last → GF2 // v ≠ 0} => hy.windows h hp hne s v.1 (by
    obtain ⟨i, hi⟩ := Function.ne_iff.1 v.2
    exact ⟨i, hi⟩)
  choose k hk _ using hw
  have hcard : Fintype.card {v : Fin P.last → GF2 // v ≠ 0} = 2 ^ P.last - 1 := by
    rw [Fintype.card_subtype_compl, Fintype.card_subtype_eq, Fintype.card_fun, Fintype.card_fin, show Fintype.card GF2 = 2 from rfl]
  have hinj : Function.Injective k := fun v v' e => Subtype.ext (funext fun i => by rw [← (hk v).2 i, ← (hk v').2 i, e])
  have himg : Finset.univ.image k = Finset.range (2 ^ P.last - 1) := Finset.eq_of_subset_of_card_le
    (fun x hx => by
      obtain ⟨v, -, rfl⟩ := Finset.mem_image.1 hx
      exact Finset.mem_range.2 (hk v).1)
    (by rw [Finset.card_image_of_injective _ hinj, Finset.card_univ, hcard, Finset.card_range])
  rw [← himg, Finset.sum_image hinj.injOn]
  have e1 : ∀ v : {v : Fin P.last → GF2 // v ≠ 0}, sgn (y (s + k v)) = sgn (v.1 ⟨0, by omega⟩) := fun v => by
    rw [← (hk v).2 ⟨0, by omega⟩, Nat.add_zero]
  rw [Finset.sum_congr rfl fun v _ => e1 v]
  have e2 := orth (ι := Fin P.last) (Pi.single ⟨0, by omega⟩ 1)
  rw [if_neg (by simp)] at e2
  have e3 : ∀ c : Fin P.last → GF2, ∑ i, c i * (Pi.single (⟨0, by omega⟩ : Fin P.last) (1 : GF2) : Fin P.last → GF2) i = c ⟨0, by omega⟩ := fun c => by
    rw [Finset.sum_eq_single ⟨0, by omega⟩ (fun b _ hb => by rw [Pi.single_eq_of_ne hb, mul_zero]) (by simp), Pi.single_eq_same, mul_one]
  simp only [e3] at e2
  rw [← Finset.add_sum_erase _ _ (Finset.mem_univ (0 : Fin P.last → GF2))] at e2
  have e4 : ∑ v : {v : Fin P.last → GF2 // v ≠ 0}, sgn (v.1 ⟨0, by omega⟩) = ∑ v ∈ Finset.univ.erase (0 : Fin P.last → GF2), sgn (v ⟨0, by omega⟩) := by
    rw [Finset.sum_subtype (Finset.univ.erase (0 : Fin P.last → GF2)) (p := fun v => v ≠ 0) (fun v => by simp) (fun v => sgn (v ⟨0, by omega⟩))]
  rw [e4]
  rw [Pi.zero_apply, sgn_zero] at e2
  linarith

theorem sol_sum {ι : Type} (s : Finset ι) (c : ι → GF2) {y : ι → ℕ → GF2} (hy : ∀ i, Sol P (y i)) : Sol P fun t => ∑ i ∈ s, c i * y i t := by
  intro t
  have : ∀ l : List ℕ, ∑ i ∈ s, c i * (l.map fun a => y i (t + P.last - a)).sum = (l.map fun a => ∑ i ∈ s, c i * y i (t + P.last - a)).sum := fun l => by
    induction l with
    | nil => simp
    | cons a l ih => simp only [List.map_cons, List.sum_cons, mul_add, Finset.sum_add_distrib, ih]
  rw [← this]
  exact Finset.sum_congr rfl fun i _ => by rw [hy i t]

/-- Sequences without a linear relation take all values together equally often. -/
theorem count (h : Valid P) (hp : Primitive P) {ι : Type} [Fintype ι] [DecidableEq ι] {y : ι → ℕ → GF2} (hy : ∀ i, Sol P (y i)) (s : ℕ)
    (hno : ∀ c : ι → GF2, (∀ t, ∑ i, c i * y i (s + t) = 0) → c = 0) (v : ι → GF2) :
    (((Finset.range (2 ^ P.last - 1)).filter fun k => ∀ i, y i (s + k) = v i).card : ℤ) * 2 ^ Fintype.card ι =
      2 ^ P.last - if v = 0 then 2 ^ Fintype.card ι else 0 := by
  classical
  have e1 : ∀ k, (if ∀ i, y i (s + k) = v i then (2 : ℤ) ^ Fintype.card ι else 0) = ∑ c : ι → GF2, sgn (∑ i, c i * y i (s + k)) * sgn (∑ i, c i * v i) := fun k => by
    have := orth fun i => y i (s + k) + v i
    simp only [mul_add, Finset.sum_add_distrib, sgn_add] at this
    rw [this]
    refine if_congr ?_ rfl rfl
    rw [funext_iff]
    refine forall_congr' fun i => ?_
    rw [Pi.zero_apply]
    generalize y i (s + k) = a
    generalize v i = b
    rcases a with ⟨_ | _⟩ <;> rcases b with ⟨_ | _⟩ <;> decide
  have e2 : ∀ c : ι → GF2, c ≠ 0 → ∑ k ∈ Finset.range (2 ^ P.last - 1), sgn (∑ i, c i * y i (s + k)) = -1 := fun c hc => by
    refine sum_period h hp (sol_sum Finset.univ c hy) ?_ s
    by_contra hz
    push Not at hz
    exact hc (hno c fun t => hz _)
  have hv := orth v
  rw [← Finset.add_sum_erase _ _ (Finset.mem_univ (0 : ι → GF2))] at hv
  have hT : ((2 ^ P.last - 1 : ℕ) : ℤ) = 2 ^ P.last - 1 := by
    rw [Nat.cast_sub Nat.one_le_two_pow]; push_cast; rfl
  calc _ = ∑ k ∈ Finset.range (2 ^ P.last - 1), if ∀ i, y i (s + k) = v i then (2 : ℤ) ^ Fintype.card ι else 0 := by
        rw [← Finset.sum_filter, Finset.sum_const, nsmul_eq_mul]
    _ = ∑ c : ι → GF2, (∑ k ∈ Finset.range (2 ^ P.last - 1), sgn (∑ i, c i * y i (s + k))) * sgn (∑ i, c i * v i) := by
        rw [Finset.sum_congr rfl fun k _ => e1 k, Finset.sum_comm]
        exact Finset.sum_congr rfl fun c _ => (Finset.sum_mul _ _ _).symm
    _ = _ := by
        have e3 : ∑ c ∈ Finset.univ.erase (0 : ι → GF2), (∑ k ∈ Finset.range (2 ^ P.last - 1), sgn (∑ i, c i * y i (s + k))) * sgn (∑ i, c i * v i) =
            ∑ c ∈ Finset.univ.erase (0 : ι → GF2), -1 * sgn (∑ i, c i * v i) :=
          Finset.sum_congr rfl fun c hc => by rw [e2 c (Finset.ne_of_mem_erase hc)]
        rw [← Finset.add_sum_erase _ _ (Finset.mem_univ (0 : ι → GF2)), e3, ← Finset.mul_sum]
        simp only [Pi.zero_apply, zero_mul, Finset.sum_const_zero, sgn_zero, Finset.sum_const, Finset.card_range, nsmul_eq_mul, mul_one, hT] at hv ⊢
        linarith

end Trng.LagFibWords
