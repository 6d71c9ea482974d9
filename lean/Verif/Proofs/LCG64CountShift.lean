import Verif.Model.LCG64CountShift
import Verif.Proofs.LCG64Period
/- Helper lemmas for lcg64_count_shift. -/
namespace Trng.LCG64Count

/-- the modulus as a natural number -/
def M : Nat := 2305843009213693951

theorem modulus_toNat : modulus.toNat = M := rfl

/-- parameters and state as the constructors and seeds produce them -/
def Valid (e : LCG64Count) : Prop := e.count.toNat < M ∧ e.P.inc.toNat < M

instance (e : LCG64Count) : Decidable (Valid e) := inferInstanceAs (Decidable (_ ∧ _))

theorem addCount_toNat (c d : BitVec 64) (hc : c.toNat < M) (hd : d.toNat ≤ M) :
    (addCount c d).toNat = (c.toNat + d.toNat) % M := by
  have hsum : (c + d).toNat = c.toNat + d.toNat := by
    rw [BitVec.toNat_add]
    apply Nat.mod_eq_of_lt
    simp only [M] at *; omega
  unfold addCount
  simp only [ge_iff_le, BitVec.le_def, hsum, modulus_toNat]
  split
  · rw [BitVec.toNat_sub, hsum, modulus_toNat]
    simp only [M] at *
    omega
  · rw [hsum]; simp only [M] at *; omega

theorem addCount_self_le (x : BitVec 64) (hx : x.toNat ≤ M) :
    (addCount x x).toNat ≤ M ∧ (addCount x x).toNat % M = (2 * x.toNat) % M := by
  have hsum : (x + x).toNat = x.toNat + x.toNat := by
    rw [BitVec.toNat_add]
    apply Nat.mod_eq_of_lt
    simp only [M] at *; omega
  unfold addCount
  simp only [ge_iff_le, BitVec.le_def, hsum, modulus_toNat]
  split
  · next h =>
    have hv : (x + x - modulus).toNat = x.toNat + x.toNat - M := by
      rw [BitVec.toNat_sub, hsum, modulus_toNat]
      simp only [M] at *
      omega
    rw [hv]
    refine ⟨by omega, ?_⟩
    rw [← Nat.add_mod_right, Nat.sub_add_cancel h, two_mul]
  · rw [hsum]; simp only [M] at *; omega

theorem multLoop_toNat (fuel a : Nat) (result x : BitVec 64) (ha : a < 2 ^ fuel)
    (hr : result.toNat < M) (hx : x.toNat ≤ M) :
    (multLoop fuel a result x).toNat = (result.toNat + a * x.toNat) % M := by
  induction fuel generalizing a result x with
  | zero =>
    have : a = 0 := by simpa using ha
    subst this
    simp [multLoop, Nat.mod_eq_of_lt hr]
  | succ fuel ih =>
    rw [multLoop]
    by_cases h0 : a > 0
    · rw [if_pos h0]
      obtain ⟨h2, h3⟩ := addCount_self_le x hx
      have hMpos : 0 < M := by decide
      have key : a * x.toNat = a % 2 * x.toNat + a / 2 * (2 * x.toNat) := by
        conv_lhs => rw [← Nat.mod_add_div a 2]
        ring
      have hmul : a / 2 * (addCount x x).toNat ≡ a / 2 * (2 * x.toNat) [MOD M] :=
        Nat.ModEq.mul_left _ h3
      by_cases h1 : a % 2 = 1
      · rw [if_pos h1, ih _ _ _ (by omega) ?_ h2, addCount_toNat _ _ hr hx, key, h1, one_mul,
          ← Nat.add_assoc]
        · exact Nat.ModEq.add (Nat.mod_modEq _ _) hmul
        · rw [addCount_toNat _ _ hr hx]; exact Nat.mod_lt _ hMpos
      · rw [if_neg h1, ih _ _ _ (by omega) hr h2, key]
        have : a % 2 = 0 := by omega
        rw [this, zero_mul, zero_add]
        exact Nat.ModEq.add_left _ hmul
    · have : a = 0 := by omega
      subst this
      simp [Nat.mod_eq_of_lt hr]

theorem multModulo_toNat (a b : BitVec 64) (ha : a.toNat ≤ M) (hb : b.toNat ≤ M) :
    (multModulo a b).toNat = (a.toNat * b.toNat) % M := by
  have hM : 0 < M := by decide
  unfold multModulo
  by_cases h : a > b
  · simp only [h, if_true]
    rw [multLoop_toNat _ _ _ _ b.isLt (by simpa using hM) ha]
    simp [Nat.mul_comm]
  · simp only [h, if_false]
    rw [multLoop_toNat _ _ _ _ a.isLt (by simpa using hM) hb]
    simp

theorem multModulo_lt (a b : BitVec 64) (ha : a.toNat ≤ M) (hb : b.toNat ≤ M) :
    (multModulo a b).toNat < M := by
  rw [multModulo_toNat a b ha hb]; exact Nat.mod_lt _ (by decide)

/-! ### relation to the plain LCG -/

/-- the LCG part of the engine -/
def lcg (e : LCG64Count) : LCG64 := ⟨⟨e.P.a, e.P.b⟩, e.r⟩

theorem lcg_step (e : LCG64Count) : (step e).lcg = e.lcg.step := rfl

theorem lcg_iterate (e : LCG64Count) (n : Nat) : (step^[n] e).lcg = LCG64.step^[n] e.lcg := by
  induction n generalizing e with
  | zero => rfl
  | succ n ih => rw [Function.iterate_succ_apply, ih, lcg_step, ← Function.iterate_succ_apply]

theorem P_step (e : LCG64Count) : (step e).P = e.P := rfl

theorem P_iterate (e : LCG64Count) (n : Nat) : (step^[n] e).P = e.P := by
  induction n generalizing e with
  | zero => rfl
  | succ n ih => rw [Function.iterate_succ_apply, ih, P_step]

theorem count_step (e : LCG64Count) (h : Valid e) :
    (step e).count.toNat = (e.count.toNat + e.P.inc.toNat) % M :=
  addCount_toNat _ _ h.1 h.2.le

theorem valid_step (e : LCG64Count) (h : Valid e) : Valid (step e) :=
  ⟨by rw [count_step e h]; exact Nat.mod_lt _ (by decide), h.2⟩

theorem valid_iterate (e : LCG64Count) (h : Valid e) (n : Nat) : Valid (step^[n] e) := by
  induction n generalizing e with
  | zero => exact h
  | succ n ih => rw [Function.iterate_succ_apply]; exact ih _ (valid_step e h)

theorem count_iterate (e : LCG64Count) (h : Valid e) (n : Nat) :
    (step^[n] e).count.toNat = (e.count.toNat + n * e.P.inc.toNat) % M := by
  induction n with
  | zero => simp [Nat.mod_eq_of_lt h.1]
  | succ n ih =>
    rw [Function.iterate_succ_apply', count_step _ (valid_iterate e h n), ih, P_iterate,
      Nat.mod_add_mod]
    congr 1; ring

theorem ext_lcg (e e' : LCG64Count) (h1 : e.lcg = e'.lcg) (h2 : e.P.inc = e'.P.inc)
    (h3 : e.count.toNat = e'.count.toNat) : e = e' := by
  rcases e with ⟨⟨a, b, i⟩, r, c⟩
  rcases e' with ⟨⟨a', b', i'⟩, r', c'⟩
  simp only [lcg, LCG64.mk.injEq, LCG64.Param.mk.injEq] at h1
  obtain ⟨⟨rfl, rfl⟩, rfl⟩ := h1
  simp only at h2 h3
  rw [h2, BitVec.eq_of_toNat_eq h3]

theorem rJump2_eq (e : LCG64Count) (i : Nat) (hi : i < 64) :
    rJump2 e.P e.r i = some (LCG64.step^[2 ^ i] e.lcg).r := by
  have := LCG64.jump2_eq e.lcg i hi
  simp only [LCG64.jump2, LCG64.oneShl, if_pos hi, Option.bind_eq_bind, Option.bind_some,
    Option.pure_def, Option.some.injEq] at this
  simp only [rJump2, LCG64.oneShl, if_pos hi, Option.bind_eq_bind, Option.bind_some,
    Option.pure_def, Option.some.injEq]
  rw [← this]; rfl

theorem rJump2_eq' (P : Param) (r : BitVec 64) (i : Nat) (hi : i < 64) :
    rJump2 P r i = some (LCG64.step^[2 ^ i] ⟨⟨P.a, P.b⟩, r⟩).r :=
  rJump2_eq ⟨P, r, 0⟩ i hi

theorem mk_iterate (a b r : BitVec 64) (n m : Nat) :
    (LCG64.step^[n] ⟨⟨a, b⟩, (LCG64.step^[m] ⟨⟨a, b⟩, r⟩).r⟩) =
      LCG64.step^[n + m] ⟨⟨a, b⟩, r⟩ := by
  rw [Function.iterate_add_apply]
  congr 1
  rw [LCG64.step_iterate]

theorem rJumpLoop_eq (P : Param) (fuel i s : Nat) (r : BitVec 64) (h : s < 2 ^ fuel)
    (hi : i + fuel ≤ 64) :
    rJumpLoop P fuel i s r = some (LCG64.step^[s * 2 ^ i] ⟨⟨P.a, P.b⟩, r⟩).r := by
  induction fuel generalizing i s r with
  | zero =>
    have : s = 0 := by simpa using h
    subst this; simp [rJumpLoop]
  | succ fuel ih =>
    rw [rJumpLoop]
    by_cases hs : s > 0
    · rw [if_pos hs]
      have key : s * 2 ^ i = s / 2 * 2 ^ (i + 1) + s % 2 * 2 ^ i := by
        conv_lhs => rw [← Nat.div_add_mod s 2]
        ring
      by_cases h1 : s % 2 = 1
      · rw [if_pos h1, rJump2_eq' _ _ _ (by omega)]
        simp only [Option.bind_eq_bind, Option.bind_some]
        rw [ih _ _ _ (by omega) (by omega), key, h1, one_mul, mk_iterate]
      · rw [if_neg h1]
        simp only [Option.bind_eq_bind, Option.bind_some]
        rw [ih _ _ _ (by omega) (by omega), key]
        have : s % 2 = 0 := by omega
        rw [this]; simp
    · have : s = 0 := by omega
      subst this; simp

theorem rBackLoop_eq (P : Param) (r : BitVec 64) (k : Nat) (hk : k ≤ 64) :
    (List.range k).foldlM (fun r i => rJump2 P r i) r =
      some (LCG64.step^[2 ^ k - 1] ⟨⟨P.a, P.b⟩, r⟩).r := by
  induction k with
  | zero => rfl
  | succ k ih =>
    rw [List.range_succ, List.foldlM_append, ih (by omega)]
    simp only [Option.bind_eq_bind, Option.bind_some, List.foldlM_cons, List.foldlM_nil]
    rw [rJump2_eq' _ _ _ (by omega)]
    simp only [Option.bind_some, Option.pure_def, Option.some.injEq]
    rw [mk_iterate]
    congr 2
    have := Nat.one_le_two_pow (n := k)
    rw [pow_succ]; omega

theorem powers_eq (s : Nat) :
    ((List.range s).foldl (fun p _ => multModulo 2 p) (1 : BitVec 64)).toNat = 2 ^ s % M := by
  induction s with
  | zero => decide
  | succ s ih =>
    rw [List.range_succ, List.foldl_append]
    simp only [List.foldl_cons, List.foldl_nil]
    rw [multModulo_toNat _ _ (by decide) (by rw [ih]; exact (Nat.mod_lt _ (by decide)).le), ih]
    simp only [BitVec.reduceToNat]
    rw [Nat.mul_mod_mod, pow_succ, Nat.mul_comm]

theorem jump2_eq (e : LCG64Count) (he : Valid e) (s : Nat) (hs : s < 64) :
    e.jump2 s = some (step^[2 ^ s] e) := by
  simp only [jump2, rJump2_eq e s hs, Option.bind_eq_bind, Option.bind_some, Option.pure_def,
    Option.some.injEq]
  have hp := powers_eq s
  have hplt : ((List.range s).foldl (fun p _ => multModulo 2 p) (1 : BitVec 64)).toNat ≤ M := by
    rw [hp]; exact (Nat.mod_lt _ (by decide)).le
  apply ext_lcg
  · rw [lcg_iterate, LCG64.step_iterate]; rfl
  · rw [P_iterate]
  · rw [count_iterate e he, addCount_toNat _ _ he.1 (multModulo_lt _ _ hplt he.2.le).le,
      multModulo_toNat _ _ hplt he.2.le, hp]
    rw [Nat.add_mod_mod]
    exact Nat.ModEq.add_left _ (Nat.ModEq.mul_right _ (Nat.mod_modEq _ _))

theorem foldl_step (e : LCG64Count) (n : Nat) :
    (List.range n).foldl (fun e _ => step e) e = step^[n] e := by
  induction n with
  | zero => rfl
  | succ n ih => rw [List.range_succ, List.foldl_append, ih, Function.iterate_succ_apply']; rfl

theorem jump_eq (e : LCG64Count) (he : Valid e) (n : BitVec 64) (hn : n.toNat ≤ M) :
    e.jump n = some (step^[n.toNat] e) := by
  unfold jump
  split
  · rw [foldl_step]
  · rw [rJumpLoop_eq _ _ _ _ _ n.isLt (by omega)]
    simp only [Option.bind_eq_bind, Option.bind_some, Option.pure_def, Option.some.injEq]
    apply ext_lcg
    · rw [lcg_iterate, LCG64.step_iterate]
      simp only [pow_zero, mul_one]
      rw [LCG64.step_iterate]; rfl
    · rw [P_iterate]
    · rw [count_iterate e he, addCount_toNat _ _ he.1 (multModulo_lt _ _ he.2.le hn).le,
        multModulo_toNat _ _ he.2.le hn, Nat.add_mod_mod, Nat.mul_comm]

/-- the engine that performs `s` steps at once -/
def big (e : LCG64Count) (s : BitVec 32) : LCG64Count :=
  ⟨⟨e.P.a ^ s.toNat, e.P.b * LCG64.geo e.P.a s.toNat, multModulo (s.setWidth 64) e.P.inc⟩,
    e.r, e.count⟩

theorem setWidth_toNat (s : BitVec 32) : (s.setWidth 64).toNat = s.toNat := by
  rw [BitVec.toNat_setWidth]
  have := s.isLt
  omega

theorem setWidth_le (s : BitVec 32) : (s.setWidth 64).toNat ≤ M := by
  rw [setWidth_toNat]
  have := s.isLt
  simp only [M]; omega

theorem big_inc (e : LCG64Count) (he : Valid e) (s : BitVec 32) :
    (big e s).P.inc.toNat = (s.toNat * e.P.inc.toNat) % M := by
  show (multModulo _ _).toNat = _
  rw [multModulo_toNat _ _ (setWidth_le s) he.2.le, setWidth_toNat]

theorem valid_big (e : LCG64Count) (he : Valid e) (s : BitVec 32) : Valid (big e s) :=
  ⟨he.1, by rw [big_inc e he]; exact Nat.mod_lt _ (by decide)⟩

theorem big_iterate (e : LCG64Count) (he : Valid e) (s : BitVec 32) (k : Nat) :
    (step^[k] (big e s)).r = (step^[s.toNat * k] e).r ∧
    (step^[k] (big e s)).count = (step^[s.toNat * k] e).count := by
  constructor
  · have h := LCG64.big_iterate e.lcg s.toNat k
    have h1 : (step^[k] (big e s)).r = (LCG64.step^[k] (big e s).lcg).r := by
      rw [← lcg_iterate]; rfl
    have h2 : (step^[s.toNat * k] e).r = (LCG64.step^[s.toNat * k] e.lcg).r := by
      rw [← lcg_iterate]; rfl
    rw [h1, h2, ← h]; rfl
  · apply BitVec.eq_of_toNat_eq
    rw [count_iterate _ (valid_big e he s), count_iterate _ he, big_inc e he]
    show (e.count.toNat + k * _) % M = _
    apply Nat.ModEq.add_left
    calc k * (s.toNat * e.P.inc.toNat % M) ≡ k * (s.toNat * e.P.inc.toNat) [MOD M] :=
          Nat.ModEq.mul_left _ (Nat.mod_modEq _ _)
      _ = s.toNat * k * e.P.inc.toNat := by ring

/-- `backward` on a valid engine with odd multiplier is the inverse of `step` -/
theorem backward_eq (e : LCG64Count) (he : Valid e) (ha : e.P.a.toNat % 2 = 1) :
    ∃ e', e.backward = some e' ∧ step e' = e ∧ Valid e' ∧ e'.P = e.P := by
  have hM : 0 < M := by decide
  have hd : (modulus - e.P.inc).toNat = M - e.P.inc.toNat := by
    have := he.2
    rw [BitVec.toNat_sub, modulus_toNat]
    simp only [M] at *; omega
  have hc := addCount_toNat e.count (modulus - e.P.inc) he.1 (by omega)
  refine ⟨⟨e.P, (LCG64.step^[LCG64.backSteps] e.lcg).r,
    addCount e.count (modulus - e.P.inc)⟩, ?_, ?_, ⟨?_, he.2⟩, rfl⟩
  · unfold backward
    rw [rBackLoop_eq _ _ _ le_rfl, LCG64.backSteps_def]
    rfl
  · apply ext_lcg
    · rw [lcg_step]
      have : (⟨e.P, (LCG64.step^[LCG64.backSteps] e.lcg).r,
          addCount e.count (modulus - e.P.inc)⟩ : LCG64Count).lcg =
          LCG64.step^[LCG64.backSteps] e.lcg := by
        rw [LCG64.step_iterate]; rfl
      rw [this]
      exact LCG64.step_backward e.lcg ha
    · rfl
    · generalize (LCG64.step^[LCG64.backSteps] e.lcg).r = R
      have hlt : (addCount e.count (modulus - e.P.inc)).toNat < M := by
        rw [hc]; exact Nat.mod_lt _ hM
      generalize hC : addCount e.count (modulus - e.P.inc) = C at hc hlt
      rw [count_step ⟨e.P, R, C⟩ ⟨hlt, he.2⟩]
      dsimp only
      rw [hc, hd, Nat.mod_add_mod]
      have h1 := he.1
      have h2 := he.2
      rw [show e.count.toNat + (M - e.P.inc.toNat) + e.P.inc.toNat = e.count.toNat + M by omega,
        Nat.add_mod_right, Nat.mod_eq_of_lt h1]
  · rw [hc]; exact Nat.mod_lt _ hM

theorem split_eq (e : LCG64Count) (he : Valid e) (ha : e.P.a.toNat % 2 = 1) (s n : BitVec 32)
    (hs : 1 < s.toNat) (hn : n.toNat < s.toNat) :
    ∃ e', e.split s n = .ok e' ∧ step e' = big (step^[n.toNat + 1] e) s ∧ Valid e' := by
  have h1 : ¬ (s < 1 ∨ n ≥ s) := by
    rw [BitVec.lt_def, ge_iff_le, BitVec.le_def]
    simp; omega
  have h2 : s > 1 := by rw [gt_iff_lt, BitVec.lt_def]; simpa using hs
  have h3 : (n.setWidth 64 + 1).toNat = n.toNat + 1 := by
    rw [BitVec.toNat_add, BitVec.toNat_setWidth]
    have := n.isLt
    simp; omega
  have hodd : (big (step^[n.toNat + 1] e) s).P.a.toNat % 2 = 1 := by
    simp only [big, P_iterate]
    exact LCG64.odd_pow _ ha _
  obtain ⟨e', hb, hstep, hv, -⟩ := backward_eq _
    (valid_big _ (valid_iterate e he (n.toNat + 1)) s) hodd
  refine ⟨e', ?_, hstep, hv⟩
  unfold split
  rw [if_neg h1, if_pos h2, jump_eq e he _ (by rw [h3]; have := n.isLt; simp only [M]; omega), h3]
  simp only [Option.bind_eq_bind, Option.bind_some, LCG64.f_eq, LCG64.pow_eq, setWidth_toNat]
  simp only [big] at hb
  rw [hb]; rfl

theorem call_snd (e : LCG64Count) : (call e).2 = step e := rfl

theorem afterCalls_call (n : Nat) (e : LCG64Count) : Spec.afterCalls call n e = step^[n] e :=
  Spec.afterCalls_eq_iterate _ _ _

theorem nth_call (e : LCG64Count) (k : Nat) :
    Spec.nth call e k = LCG64.shiftOut ((step^[k + 1] e).r + (step^[k + 1] e).count) := by
  rw [Spec.nth, afterCalls_call, Function.iterate_succ_apply']; rfl

theorem addCount_mod (c d : BitVec 64) (hc : c.toNat < 2 * M) (hd : d.toNat ≤ M) :
    (addCount c d).toNat < 2 * M ∧ (addCount c d).toNat ≡ c.toNat + d.toNat [MOD M] := by
  have hsum : (c + d).toNat = c.toNat + d.toNat := by
    rw [BitVec.toNat_add]
    apply Nat.mod_eq_of_lt
    simp only [M] at *; omega
  unfold addCount
  simp only [ge_iff_le, BitVec.le_def, hsum, modulus_toNat]
  split
  · next h =>
    have hv : (c + d - modulus).toNat = c.toNat + d.toNat - M := by
      rw [BitVec.toNat_sub, hsum, modulus_toNat]
      simp only [M] at *
      omega
    rw [hv]
    refine ⟨by omega, ?_⟩
    show _ % _ = _ % _
    rw [← Nat.add_mod_right, Nat.sub_add_cancel h]
  · rw [hsum]; exact ⟨by omega, rfl⟩

theorem count_iterate_mod (e : LCG64Count) (h : e.count.toNat < 2 * M)
    (hi : e.P.inc.toNat ≤ M) (n : Nat) :
    (step^[n] e).count.toNat < 2 * M ∧
    (step^[n] e).count.toNat ≡ e.count.toNat + n * e.P.inc.toNat [MOD M] := by
  induction n with
  | zero => exact ⟨h, by simp [Nat.ModEq]⟩
  | succ n ih =>
    rw [Function.iterate_succ_apply']
    have h1 := addCount_mod (step^[n] e).count e.P.inc ih.1 hi
    have h2 : (step (step^[n] e)).count = addCount (step^[n] e).count e.P.inc := by
      rw [← P_iterate e n]; rfl
    rw [h2]
    refine ⟨h1.1, h1.2.trans ?_⟩
    rw [Nat.succ_mul, ← Nat.add_assoc]
    exact ih.2.add_right _

/-- an engine with the right LCG state but the wrong counter never gets back in step -/
theorem nth_ne_of_count_ne (e e' : LCG64Count) (he : Valid e) (he' : e'.count.toNat < 2 * M)
    (N : Nat) (hl : e'.lcg = (step^[N] e).lcg) (hi : e'.P.inc = e.P.inc)
    (hc : ¬ e'.count.toNat ≡ e.count.toNat + N * e.P.inc.toNat [MOD M]) (k : Nat) :
    Spec.nth call e' k ≠ Spec.nth call e (k + N) := by
  intro h
  rw [nth_call, nth_call, show k + N + 1 = (k + 1) + N by omega,
    Function.iterate_add_apply step (k + 1) N e] at h
  have h' := LCG64.shiftOut_injective h
  have hr : (step^[k + 1] e').r = (step^[k + 1] (step^[N] e)).r := by
    have h1 : ∀ (x : LCG64Count) n, (step^[n] x).r = (LCG64.step^[n] x.lcg).r := fun x n => by
      rw [← lcg_iterate]; rfl
    rw [h1, h1, hl]
  rw [hr] at h'
  have hc' := congrArg BitVec.toNat (add_left_cancel h')
  have hv := valid_iterate e he N
  have g1 := (count_iterate_mod e' he' (by rw [hi]; exact he.2.le) (k + 1)).2
  rw [hc', count_iterate _ hv, P_iterate, hi] at g1
  have h2 : e'.count.toNat ≡ (step^[N] e).count.toNat [MOD M] :=
    (Nat.ModEq.add_right_cancel' _ ((Nat.mod_modEq _ _).symm.trans g1)).symm
  rw [count_iterate _ he] at h2
  exact hc (h2.trans (Nat.mod_modEq _ _))

end Trng.LCG64Count
