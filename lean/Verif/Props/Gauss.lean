import Verif.Proofs.Gauss
/- C21, C22: int_math::gauss<n>.  The system is `∑ c, a r c * x c ≡ b r (mod m)`; matrix and right hand
side have entries in [0, m), as in all calls (`split` of the mrg and yarn engines). -/
namespace Trng
open IntMath

/-! ### C21 -/

/-- Whatever the rank of the matrix: `gauss` returns or throws (no overflow, no endless loop), and if it
returns `x`, then `x` solves the system and has entries in `[0, m)`. -/
theorem C21_gauss_sound {n : Nat} (m : Nat) (hp : m.Prime) (hm : m ≤ 2 ^ 31 - 1)
    (a : Fin n → Fin n → Int) (b : Fin n → Int)
    (ha : ∀ r c, 0 ≤ a r c ∧ a r c < m) (hb : ∀ r, 0 ≤ b r ∧ b r < m) :
    gauss a b m = .throws ∨
    ∃ x, gauss a b m = .ok x ∧ (∀ i, 0 ≤ x i ∧ x i < m) ∧ ∀ r, (∑ c, a r c * x c) % m = b r := by
  have : Fact m.Prime := ⟨hp⟩
  obtain ⟨rank, s, -, -, -, h1, h2⟩ := gauss_main (m := m) (by omega) ha hb
  by_cases h : ∀ i : Fin n, rank ≤ i.val → B' m s i = 0
  · right
    obtain ⟨x, hx, hR, -, hs⟩ := h2 h
    refine ⟨x, hx, hR, fun r => ?_⟩
    have e : (((∑ c, a r c * x c : Int)) : ZMod m) = ((b r : Int) : ZMod m) := by
      rw [← hs r]; push_cast; rfl
    rw [ZMod.intCast_eq_intCast_iff] at e
    rw [e.eq, Int.emod_eq_of_lt (hb r).1 (hb r).2]
  · left
    push Not at h
    exact h1 h

/-- A regular system with an exchange of rows, and a singular one (rank 2). -/
example : ∃ x, gauss (n := 2) (fun r c => if r = 0 ∧ c = 0 then 0 else 5 + 2 * r.val + c.val)
    (fun r => 12 + r.val) 101 = .ok x ∧ x 0 = 14 ∧ x 1 = 2 := ⟨_, rfl, by decide +kernel, by decide +kernel⟩
example : ∃ x, gauss (n := 3) (fun r c => 1 + 2 * r.val + 3 * c.val) (fun r => 10 + 5 * r.val) 101 = .ok x ∧
    x 0 = 0 ∧ x 1 = 53 ∧ x 2 = 0 := ⟨_, rfl, by decide +kernel, by decide +kernel, by decide +kernel⟩

/-! ### C22 -/

/-- `gauss` does not throw if the matrix is invertible modulo `m`, i.e. if no non-zero residue vector
is mapped to zero. -/
theorem C22_gauss_complete {n : Nat} (m : Nat) (hp : m.Prime) (hm : m ≤ 2 ^ 31 - 1)
    (a : Fin n → Fin n → Int) (b : Fin n → Int)
    (ha : ∀ r c, 0 ≤ a r c ∧ a r c < m) (hb : ∀ r, 0 ≤ b r ∧ b r < m)
    (hinv : ∀ x : Fin n → Int, (∀ r, (∑ c, a r c * x c) % m = 0) → ∀ c, x c % m = 0) :
    ∃ x, gauss a b m = .ok x := by
  have : Fact m.Prime := ⟨hp⟩
  obtain ⟨rank, s, hr, I, hpz, h1, h2⟩ := gauss_main (m := m) (by omega) ha hb
  by_cases hn : rank = n
  · obtain ⟨x, hx, -⟩ := h2 (fun i hi => by have := i.isLt; omega)
    exact ⟨x, hx⟩
  · exfalso
    have hlt : rank < n := by omega
    obtain ⟨x, hx1, -, hx3⟩ := kernel_at_break I ⟨rank, hlt⟩ rfl (hpz ⟨rank, hlt⟩ rfl)
    have := hinv (fun c => ((x c).val : Int)) (fun r => by
      have h := hx3 r
      rw [zero_mul] at h
      have : ((∑ c, a r c * ((x c).val : Int) : Int) : ZMod m) = 0 := by
        push_cast
        simpa [A', ginit] using h
      rw [ZMod.intCast_zmod_eq_zero_iff_dvd] at this
      exact Int.emod_eq_zero_of_dvd this) ⟨rank, hlt⟩
    rw [hx1] at this
    have hF : Fact (1 < m) := ⟨hp.one_lt⟩
    rw [ZMod.val_one] at this
    have h1 := hp.one_lt
    rw [Int.emod_eq_of_lt (by omega) (by omega)] at this
    simp at this

/-- In general: `gauss` finds the solution `z` if it vanishes behind the first `k` columns and these
are linearly independent modulo `m`. -/
theorem C22_gauss_complete_rank {n : Nat} (m : Nat) (hp : m.Prime) (hm : m ≤ 2 ^ 31 - 1)
    (a : Fin n → Fin n → Int) (b : Fin n → Int)
    (ha : ∀ r c, 0 ≤ a r c ∧ a r c < m) (hb : ∀ r, 0 ≤ b r ∧ b r < m) (k : Nat)
    (hind : ∀ x : Fin n → Int, (∀ c, k ≤ c.val → x c = 0) → (∀ r, (∑ c, a r c * x c) % m = 0) →
      ∀ c, x c % m = 0)
    (z : Fin n → Int) (hz : ∀ c, 0 ≤ z c ∧ z c < m) (hzk : ∀ c, k ≤ c.val → z c = 0)
    (hsol : ∀ r, (∑ c, a r c * z c) % m = b r) :
    gauss a b m = .ok z := by
  have : Fact m.Prime := ⟨hp⟩
  have hzero : ∀ y : Int, y % m = 0 ↔ (y : ZMod m) = 0 := fun y => by
    rw [ZMod.intCast_zmod_eq_zero_iff_dvd, Int.dvd_iff_emod_eq_zero]
  obtain ⟨x, hx, hR, he⟩ := gauss_complete (m := m) (by omega) ha hb k (fun x hx h => by
      have := hind (fun c => ((x c).val : Int)) (fun c hc => by rw [hx c hc]; simp) (fun r => by
        rw [hzero]; push_cast; simpa using h r)
      funext c
      have h := this c
      rw [hzero] at h
      simpa using h) (fun c => (z c : ZMod m)) (fun c hc => by rw [hzk c hc]; simp) (fun r => by
      rw [← hsol r]
      have := (ZMod.intCast_mod (∑ c, a r c * z c) m)
      rw [this]; push_cast; rfl)
  rw [hx]
  congr 1
  funext c
  exact (hR c).inj (hz c) (he c)

/-- The code throws for some solvable systems: here `0*x0 + x1 = 1` and `0*x0 + 0*x1 = 0`. -/
theorem C22_gauss_spurious_throw :
    ∃ (a : Fin 2 → Fin 2 → Int) (b x : Fin 2 → Int),
      (∀ r c, 0 ≤ a r c ∧ a r c < 2147483647) ∧ (∀ r, 0 ≤ b r ∧ b r < 2147483647) ∧
      (∀ r, (∑ c, a r c * x c) % 2147483647 = b r) ∧ gauss a b 2147483647 = .throws :=
  ⟨fun r c => if r = 0 ∧ c = 1 then 1 else 0, fun r => if r = 0 then 1 else 0,
    fun c => if c = 1 then 1 else 0, by decide, by decide, by decide, by decide⟩

end Trng
