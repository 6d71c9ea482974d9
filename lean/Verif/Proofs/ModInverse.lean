import Verif.Model.IntMath
import Mathlib.Data.Int.GCD
import Mathlib.Tactic.Ring
import Mathlib.Tactic.Linarith
import Mathlib.Tactic.LinearCombination

/-! Helper lemmas for int_math::modulo_inverse (C20). -/
namespace Trng.IntMath

theorem Res.bind_ok {α β : Type} (a : α) (f : α → Res β) : (Res.ok a >>= f) = f a := rfl
theorem Res.bind_throws {α β : Type} (f : α → Res β) : ((Res.throws : Res α) >>= f) = .throws := rfl
theorem Res.bind_ub {α β : Type} (f : α → Res β) : ((Res.ub : Res α) >>= f) = .ub := rfl
theorem Res.pure_eq {α : Type} (a : α) : (pure a : Res α) = .ok a := rfl

theorem i32_ok {x : Int} (h : -2147483648 ≤ x) (h' : x ≤ 2147483647) : i32 x = .ok x := by
  unfold i32; rw [if_pos ⟨h, h'⟩]

/-- Invariant of the loop of `modulo_inverse`. -/
structure InvI (a0 m a m1 flast f : Int) : Prop where
  a_nonneg : 0 ≤ a
  m1_two : 2 ≤ m1
  cong : m ∣ f * a0 - a
  congl : m ∣ flast * a0 - m1
  gcd : Int.gcd a m1 = Int.gcd a0 m
  size : (0 ≤ f ∧ flast ≤ 0 ∧ f * m1 - flast * a = m) ∨
         (f ≤ 0 ∧ 0 ≤ flast ∧ -f * m1 + flast * a = m)

theorem modInvLoop_spec {a0 m : Int} (hm2 : m ≤ 2147483647) :
    ∀ (fuel : Nat) (a m1 flast f : Int), a.toNat < fuel → InvI a0 m a m1 flast f →
      ∃ a' m1' fl' f', modInvLoop fuel a m1 flast f = .ok (a', f') ∧ InvI a0 m a' m1' fl' f' ∧
        a' ≤ 1
  | 0, _, _, _, _, h, _ => by omega
  | fuel + 1, a, m1, flast, f, h, I => by
    unfold modInvLoop
    by_cases ha : a > 1
    · rw [if_pos ha]
      have hq0 : 0 ≤ m1.tdiv a := Int.tdiv_nonneg (by linarith [I.m1_two]) (by omega)
      have hr0 : 0 ≤ m1.tmod a := Int.tmod_nonneg _ (by linarith [I.m1_two])
      have hr1 : m1.tmod a < a := by
        have := Int.tmod_lt_of_pos m1 (show 0 < a by omega); exact this
      have hdm : m1.tmod a + a * m1.tdiv a = m1 := Int.tmod_add_mul_tdiv m1 a
      generalize m1.tdiv a = q at *
      generalize m1.tmod a = r at *
      -- size of the new f
      have key : ((0 ≤ flast - q * f ∧ f ≤ 0 ∧ (flast - q * f) * a - f * r = m) ∨
         (flast - q * f ≤ 0 ∧ 0 ≤ f ∧ -(flast - q * f) * a + f * r = m)) := by
        rcases I.size with ⟨h1, h2, h3⟩ | ⟨h1, h2, h3⟩
        · right
          refine ⟨by nlinarith [mul_nonneg hq0 h1], h1, ?_⟩
          subst hdm; linear_combination h3
        · left
          refine ⟨by nlinarith [mul_nonneg hq0 (neg_nonneg.mpr h1)], h1, ?_⟩
          subst hdm; linear_combination h3
      have b2 : -m ≤ flast - q * f ∧ flast - q * f ≤ m ∧ -m ≤ q * f ∧ q * f ≤ m := by
        rcases key with ⟨h1, h2, h3⟩ | ⟨h1, h2, h3⟩
        · have h4 : 0 ≤ (flast - q * f) * (a - 1) := mul_nonneg h1 (by omega)
          have h5 : 0 ≤ -f * r := mul_nonneg (by omega) hr0
          have h6 : q * f ≤ 0 := by nlinarith [mul_nonneg hq0 (neg_nonneg.mpr h2)]
          rcases I.size with ⟨g1, g2, g3⟩ | ⟨g1, g2, g3⟩
          · have : f = 0 := le_antisymm h2 g1
            subst this
            constructor <;> [skip; refine ⟨?_, ?_, ?_⟩] <;> nlinarith
          · constructor <;> [skip; refine ⟨?_, ?_, ?_⟩] <;> nlinarith
        · have h4 : 0 ≤ -(flast - q * f) * (a - 1) := mul_nonneg (by omega) (by omega)
          have h5 : 0 ≤ f * r := mul_nonneg (by omega) hr0
          have h6 : 0 ≤ q * f := mul_nonneg hq0 h2
          rcases I.size with ⟨g1, g2, g3⟩ | ⟨g1, g2, g3⟩
          · constructor <;> [skip; refine ⟨?_, ?_, ?_⟩] <;> nlinarith
          · have : f = 0 := le_antisymm g1 h2
            subst this
            constructor <;> [skip; refine ⟨?_, ?_, ?_⟩] <;> nlinarith
      obtain ⟨b3, b4, b5, b6⟩ := b2
      dsimp only
      rw [i32_ok (by omega) (by omega), Res.bind_ok, i32_ok (by omega) (by omega), Res.bind_ok]
      refine modInvLoop_spec hm2 fuel _ _ _ _ (by omega) ?_
      refine ⟨hr0, by omega, ?_, I.cong, ?_, key⟩
      · obtain ⟨u, hu⟩ := I.cong
        obtain ⟨v, hv⟩ := I.congl
        exact ⟨v - q * u, by linear_combination hv - q * hu - hdm⟩
      · rw [← I.gcd, ← hdm, Int.gcd_comm a (r + a * q), mul_comm a q, Int.gcd_add_mul_right_left]
    · rw [if_neg ha]
      exact ⟨a, m1, flast, f, rfl, I, by omega⟩

theorem moduloInverse_spec {a m : Int} (ha : 1 ≤ a) (ha' : a ≤ 2147483647)
    (hm : 2 ≤ m) (hm' : m ≤ 2147483647) :
    (Int.gcd a m = 1 → ∃ x, moduloInverse a m = .ok x ∧ 0 ≤ x ∧ x < m ∧ m ∣ a * x - 1) ∧
    (Int.gcd a m ≠ 1 → moduloInverse a m = .throws) := by
  have I0 : InvI a m a m 0 1 :=
    ⟨by omega, hm, by simp, by simp, rfl, Or.inl ⟨by omega, by omega, by ring⟩⟩
  obtain ⟨a', m1', fl', f', h, I, h1⟩ :=
    modInvLoop_spec hm' (a.toNat + 1) a m 0 1 (by omega) I0
  unfold moduloInverse
  rw [if_neg (by omega), h, Res.bind_ok]
  dsimp only
  have := I.a_nonneg
  have hm1 := I.m1_two
  rcases (show a' = 0 ∨ a' = 1 by omega) with rfl | rfl
  · have hg := I.gcd
    rw [Int.gcd_zero_left] at hg
    exact ⟨fun h => by omega, fun _ => if_pos rfl⟩
  · have hg := I.gcd
    rw [Int.one_gcd] at hg
    refine ⟨fun _ => ?_, fun h => absurd hg.symm h⟩
    rw [if_neg (by omega)]
    have hc := I.cong
    have hlt : -m < f' ∧ f' < m := by
      rcases I.size with ⟨g1, g2, g3⟩ | ⟨g1, g2, g3⟩
      · constructor <;> nlinarith
      · constructor <;> nlinarith
    by_cases hf : f' ≥ 0
    · rw [if_pos hf]
      exact ⟨f', rfl, hf, hlt.2, by rwa [mul_comm]⟩
    · rw [if_neg hf, i32_ok (by omega) (by omega)]
      refine ⟨_, rfl, by omega, by omega, ?_⟩
      obtain ⟨u, hu⟩ := hc
      exact ⟨u + a, by linear_combination hu⟩

end Trng.IntMath
