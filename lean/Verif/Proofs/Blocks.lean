import Verif.Proofs.Engine
import Mathlib.Data.List.Nodup
import Mathlib.Data.List.Perm.Basic
/- Lemmas for C65: the streams of all ranks together are the sequential sequence. -/
namespace Trng.Spec

variable {σ α : Type}

theorem firstOutputs_eq_map (call : σ → α × σ) (n : Nat) (e : σ) :
    firstOutputs call n e = (List.range n).map (nth call e) := by
  apply List.ext_getElem?
  intro k
  by_cases hk : k < n
  · rw [getElem?_firstOutputs call n k e hk]; simp [hk]
  · rw [List.getElem?_eq_none (by rw [length_firstOutputs]; omega),
      List.getElem?_eq_none (by simp; omega)]

/-- The indices `k * p + r` with `r < p` and `k < b` are those below `p * b`, each once. -/
theorem leapfrog_indices (p b : Nat) :
    ((List.range p).flatMap fun r => (List.range b).map fun k => k * p + r).Perm (List.range (p * b)) := by
  rw [List.perm_ext_iff_of_nodup _ List.nodup_range]
  · intro i
    simp only [List.mem_flatMap, List.mem_range, List.mem_map]
    constructor
    · rintro ⟨r, hr, k, hk, rfl⟩
      calc k * p + r < k * p + p := by omega
        _ = (k + 1) * p := by ring
        _ ≤ b * p := Nat.mul_le_mul_right p hk
        _ = p * b := Nat.mul_comm _ _
    · intro hi
      have hp : 0 < p := by
        rcases Nat.eq_zero_or_pos p with h | h
        · subst h; simp at hi
        · exact h
      exact ⟨i % p, Nat.mod_lt _ hp, i / p, Nat.div_lt_of_lt_mul hi, by
        rw [Nat.mul_comm]; exact Nat.div_add_mod i p⟩
  · rw [List.nodup_flatMap]
    constructor
    · intro r hr
      have hp : 0 < p := by have := List.mem_range.1 hr; omega
      refine List.Nodup.map (fun a c h => ?_) List.nodup_range
      exact Nat.eq_of_mul_eq_mul_right hp (by simpa using h)
    · have : ∀ l : List Nat, l.Nodup → (∀ r ∈ l, r < p) →
          l.Pairwise (Function.onFun List.Disjoint fun r => (List.range b).map fun k => k * p + r) := by
        intro l hl hlt
        refine hl.imp_of_mem ?_
        intro r s hr hs hne i h1 h2
        simp only [List.mem_map, List.mem_range] at h1 h2
        obtain ⟨k, -, rfl⟩ := h1
        obtain ⟨j, -, hj⟩ := h2
        apply hne
        have := congrArg (· % p) hj
        simp only [Nat.mul_add_mod', Nat.mod_eq_of_lt (hlt r hr), Nat.mod_eq_of_lt (hlt s hs)] at this
        exact this.symm
      exact this _ List.nodup_range fun r hr => List.mem_range.1 hr

/-- The leapfrog streams of all ranks deliver together the sequential sequence, in another order. -/
theorem firstOutputs_leapfrog (call : σ → α × σ) (p b : Nat) (e : σ) (L : Nat → σ)
    (hL : ∀ rank, rank < p → Leapfrog call e (L rank) p rank) :
    ((List.range p).flatMap fun rank => firstOutputs call b (L rank)).Perm (firstOutputs call (p * b) e) := by
  have h1 : ((List.range p).flatMap fun rank => firstOutputs call b (L rank)) =
      ((List.range p).flatMap fun r => (List.range b).map fun k => k * p + r).map (nth call e) := by
    rw [List.map_flatMap]
    apply List.flatMap_congr
    intro r hr
    rw [firstOutputs_eq_map, List.map_map]
    exact List.map_congr_left fun k _ => hL r (List.mem_range.1 hr) k
  rw [h1, firstOutputs_eq_map]
  exact (leapfrog_indices p b).map _

end Trng.Spec
