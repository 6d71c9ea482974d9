import Verif.Proofs.Engine
import Mathlib.Data.List.Count
import Mathlib.Tactic.Linarith
/- Leapfrog streams partition the original sequence, whatever the schedule. -/
namespace Trng.Spec

variable {σ α : Type}

theorem runSchedule_getElem? (call : σ → α × σ) (sched : List Nat) (E : Nat → σ) (p : Nat)
    (hp : p < sched.length) :
    (runSchedule call sched E)[p]? =
      some (nth call (E (sched.getD p 0)) (callsBefore sched p (sched.getD p 0))) := by
  induction sched generalizing E p with
  | nil => simp at hp
  | cons j js ih =>
    cases p with
    | zero => simp [runSchedule, callsBefore, nth, afterCalls]
    | succ p =>
      simp only [List.length_cons, Nat.add_lt_add_iff_right] at hp
      simp only [runSchedule, List.getElem?_cons_succ, List.getD_cons_succ]
      rw [ih _ _ hp]
      simp only [callsBefore, List.take_succ_cons, List.count_cons]
      by_cases h : js.getD p 0 = j
      · simp only [h, if_true, beq_self_eq_true]
        rw [nth, nth, afterCalls]
      · have h' : (j == js.getD p 0) = false := by
          rw [beq_eq_false_iff_ne]; exact fun h2 => h h2.symm
        rw [if_neg h, h']; simp

theorem callsBefore_lt (sched : List Nat) (p q : Nat) (hpq : p < q) (hq : q ≤ sched.length) :
    callsBefore sched p (sched.getD p 0) < callsBefore sched q (sched.getD p 0) := by
  induction sched generalizing p q with
  | nil => simp at hq; omega
  | cons j js ih =>
    cases q with
    | zero => omega
    | succ q =>
      simp only [List.length_cons, Nat.add_le_add_iff_right] at hq
      cases p with
      | zero => simp [callsBefore]
      | succ p =>
        have := ih p q (by omega) hq
        simp only [callsBefore, List.take_succ_cons, List.count_cons, List.getD_cons_succ] at *
        omega

theorem exists_callsBefore (sched : List Nat) (j c : Nat) (h : c < sched.count j) :
    ∃ p, p < sched.length ∧ sched.getD p 0 = j ∧ callsBefore sched p j = c := by
  induction sched generalizing c with
  | nil => simp at h
  | cons i is ih =>
    rw [List.count_cons] at h
    by_cases hij : i = j
    · subst hij
      simp only [beq_self_eq_true, if_true] at h
      cases c with
      | zero => exact ⟨0, by simp, by simp, by simp [callsBefore]⟩
      | succ c =>
        obtain ⟨p, hp, h1, h2⟩ := ih c (by omega)
        refine ⟨p + 1, by simpa using hp, by simpa using h1, ?_⟩
        simp only [callsBefore, List.take_succ_cons, List.count_cons_self] at *
        omega
    · have hb : (i == j) = false := by rw [beq_eq_false_iff_ne]; exact hij
      simp only [hb] at h
      obtain ⟨p, hp, h1, h2⟩ := ih c (by simpa using h)
      refine ⟨p + 1, by simpa using hp, by simpa using h1, ?_⟩
      simp only [callsBefore, List.take_succ_cons, List.count_cons, hb] at *
      simpa using h2

theorem getD_mem (l : List Nat) (p : Nat) (hp : p < l.length) : l.getD p 0 ∈ l := by
  simp [List.getElem?_eq_getElem hp]

theorem partitionedBy_of_leapfrog (call : σ → α × σ) (e : σ) (s : Nat) (E : Nat → σ)
    (hs : 0 < s) (h : ∀ j, j < s → Leapfrog call e (E j) s j) : PartitionedBy call e s E := by
  intro sched hsched
  refine ⟨?_, ?_, ?_⟩
  · intro p hp
    rw [runSchedule_getElem? call sched E p hp]
    have hmem : sched.getD p 0 < s := by
      exact hsched _ (getD_mem sched p hp)
    rw [h _ hmem]
  · intro p q hp hq hidx
    have hmp : sched.getD p 0 < s := by
      exact hsched _ (getD_mem sched p hp)
    have hmq : sched.getD q 0 < s := by
      exact hsched _ (getD_mem sched q hq)
    simp only at hidx
    have hj : sched.getD p 0 = sched.getD q 0 := by
      have := congrArg (· % s) hidx
      simp only [Nat.mul_add_mod', Nat.mod_eq_of_lt hmp, Nat.mod_eq_of_lt hmq] at this
      exact this
    have hc : callsBefore sched p (sched.getD p 0) = callsBefore sched q (sched.getD q 0) := by
      rw [hj] at hidx ⊢
      exact Nat.eq_of_mul_eq_mul_right hs (Nat.add_right_cancel hidx)
    rcases Nat.lt_trichotomy p q with hlt | heq | hgt
    · have := callsBefore_lt sched p q hlt hq.le
      rw [hc, ← hj] at this; omega
    · exact heq
    · have := callsBefore_lt sched q p hgt hp.le
      rw [← hc, hj] at this; omega
  · intro i hi
    obtain ⟨p, hp, h1, h2⟩ := exists_callsBefore sched (i % s) (i / s) hi
    refine ⟨p, hp, ?_⟩
    simp only [h1, h2]
    rw [Nat.mul_comm]; exact Nat.div_add_mod i s

end Trng.Spec
