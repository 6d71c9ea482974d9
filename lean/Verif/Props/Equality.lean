import Verif.Model.Equality
import Verif.Model.Count128
import Verif.Spec.Engine

/-! C38 for the congruential, multiple recursive and yarn engines. -/
namespace Trng
open Spec

theorem sameFuture_of_eq {σ α : Type} (call : σ → α × σ) {e e' : σ} (h : e = e') : SameFuture call e e' := by
  subst h; exact fun _ => rfl

/-- lcg64 and lcg64_shift: equal exactly if parameters and state agree; then equal futures. -/
theorem C38_lcg64_eq (e e' : LCG64) : (e.eq e' = true ↔ e = e') ∧
    (e.eq e' = true → SameFuture LCG64.call e e' ∧ SameFuture LCG64.callShift e e') := by
  have key : e.eq e' = true ↔ e = e' := by
    rcases e with ⟨⟨a, b⟩, r⟩
    rcases e' with ⟨⟨a', b'⟩, r'⟩
    simp [LCG64.eq]
  exact ⟨key, fun h => ⟨sameFuture_of_eq _ (key.1 h), sameFuture_of_eq _ (key.1 h)⟩⟩

/-- lcg64_count_shift -/
theorem C38_lcg64_count_shift_eq (e e' : LCG64Count) : (e.eq e' = true ↔ e = e') ∧
    (e.eq e' = true → SameFuture LCG64Count.call e e') := by
  have key : e.eq e' = true ↔ e = e' := by
    rcases e with ⟨⟨a, b, c⟩, r, n⟩
    rcases e' with ⟨⟨a', b', c'⟩, r', n'⟩
    simp [LCG64Count.eq, and_assoc]
  exact ⟨key, fun h => sameFuture_of_eq _ (key.1 h)⟩

/-- minstd -/
theorem C38_minstd_eq (e e' : Minstd) : (e.eq e' = true ↔ e = e') ∧ (e.eq e' = true → SameFuture Minstd.call e e') := by
  have key : e.eq e' = true ↔ e = e' := by
    rcases e with ⟨r⟩
    rcases e' with ⟨r'⟩
    simp [Minstd.eq]
  exact ⟨key, fun h => sameFuture_of_eq _ (key.1 h)⟩

/-- all mrg and yarn engines -/
theorem C38_mrg_eq {n : Nat} [NeZero n] (m g : Nat) (e e' : MRG n) : (e.eq e' = true ↔ e = e') ∧
    (e.eq e' = true → SameFuture (MRG.call m) e e' ∧ SameFuture (MRG.callYarn m g) e e') := by
  have key : e.eq e' = true ↔ e = e' := by
    rw [MRG.eq, Bool.and_eq_true, List.all_eq_true, List.all_eq_true]
    constructor
    · rintro ⟨h1, h2⟩
      apply MRG.ext
      · funext i; exact of_decide_eq_true (h1 i (List.mem_finRange i))
      · funext i; exact of_decide_eq_true (h2 i (List.mem_finRange i))
    · rintro rfl
      simp
  exact ⟨key, fun h => ⟨sameFuture_of_eq _ (key.1 h), sameFuture_of_eq _ (key.1 h)⟩⟩

/-- count128_lcg_shift: equal engines with the same increment have the same future (without the
condition on the increment this is false, `C38_count128_eq_wrong`). -/
theorem C38_count128_eq_partial (e e' : Count128) (h : e.eq e' = true) (hi : e.P.increment = e'.P.increment) :
    SameFuture Count128.call e e' := by
  apply sameFuture_of_eq
  rcases e with ⟨⟨a, b, i⟩, r⟩
  rcases e' with ⟨⟨a', b', i'⟩, r'⟩
  simp [Count128.eq] at h
  simp at hi
  simp [h, hi]

example : (LCG64.mk LCG64.Default 5).eq (LCG64.mk LCG64.Default 5) = true ∧
    (LCG64.mk LCG64.Default 5).eq (LCG64.mk LCG64.Default 6) = false := by decide
example : (MRG.mk (n := 2) (fun i => i.val) (fun _ => 7)).eq ⟨fun i => i.val, fun _ => 7⟩ = true ∧
    (MRG.mk (n := 2) (fun i => i.val) (fun _ => 7)).eq ⟨fun i => i.val, fun i => 7 + i.val⟩ = false := by decide

end Trng
