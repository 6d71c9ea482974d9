import Verif.Model.MRGWritten
import Verif.Proofs.MRGUse
import Mathlib.Tactic.FinCases

/-! The functions of the engines as they are written agree with those for any number of terms. -/
namespace Trng.MRGWritten
open IntMath MRG

theorem put_apply {n : Nat} (x : Fin n → Int) (i : Fin n) (v : Int) (j : Fin n) :
    put x i v j = if j = i then v else x j := by
  unfold put; rw [Function.update_apply]

theorem res_ok_bind {α β : Type} (x : α) (f : α → Res β) : (Res.ok x >>= f) = f x := rfl
theorem res_pure_bind {α β : Type} (x : α) (f : α → Res β) : (pure x >>= f) = f x := rfl
theorem res_bind_assoc {α β γ : Type} (x : Res α) (f : α → Res β) (g : β → Res γ) :
    (x >>= f >>= g) = (x >>= fun a => f a >>= g) := by cases x <;> rfl

/-! ### step -/

theorem N2.step_eq (m : Nat) (e : MRG 2) : N2.step m e = MRG.step m e := by
  refine MRG.ext rfl (funext fun i => ?_)
  have hs : e.stepSum m = BitVec.ofInt 64 (e.a 0) * BitVec.ofInt 64 (e.r 0) + BitVec.ofInt 64 (e.a 1) * BitVec.ofInt 64 (e.r 1) := by
    simp [stepSum, terms, List.finRange_succ]
  fin_cases i <;> simp [N2.step, MRG.step, put_apply, hs]

theorem N3.step_eq (m : Nat) (e : MRG 3) : N3.step m e = MRG.step m e := by
  refine MRG.ext rfl (funext fun i => ?_)
  have hs : e.stepSum m = BitVec.ofInt 64 (e.a 0) * BitVec.ofInt 64 (e.r 0) + BitVec.ofInt 64 (e.a 1) * BitVec.ofInt 64 (e.r 1)
      + BitVec.ofInt 64 (e.a 2) * BitVec.ofInt 64 (e.r 2) := by
    simp [stepSum, terms, List.finRange_succ, BitVec.add_assoc]
  fin_cases i <;> simp [N3.step, MRG.step, put_apply, hs]

theorem N4.step_eq (m : Nat) (e : MRG 4) : N4.step m e = MRG.step m e := by
  refine MRG.ext rfl (funext fun i => ?_)
  have hs : e.stepSum m = BitVec.ofInt 64 (e.a 0) * BitVec.ofInt 64 (e.r 0) + BitVec.ofInt 64 (e.a 1) * BitVec.ofInt 64 (e.r 1)
      + BitVec.ofInt 64 (e.a 2) * BitVec.ofInt 64 (e.r 2) + BitVec.ofInt 64 (e.a 3) * BitVec.ofInt 64 (e.r 3) := by
    simp [stepSum, terms, List.finRange_succ, BitVec.add_assoc]
  fin_cases i <;> simp [N4.step, MRG.step, put_apply, hs]

theorem two_mul_sq (m : Nat) : 2 * BitVec.ofNat 64 m * BitVec.ofNat 64 m = BitVec.ofNat 64 (2 * m * m) := by
  rw [BitVec.ofNat_mul, BitVec.ofNat_mul]; rfl

theorem N5.step_eq (m : Nat) (e : MRG 5) : N5.step m e = MRG.step m e := by
  refine MRG.ext rfl (funext fun i => ?_)
  have hs : e.stepSum m =
      (if BitVec.ofInt 64 (e.a 0) * BitVec.ofInt 64 (e.r 0) + BitVec.ofInt 64 (e.a 1) * BitVec.ofInt 64 (e.r 1)
        + BitVec.ofInt 64 (e.a 2) * BitVec.ofInt 64 (e.r 2) + BitVec.ofInt 64 (e.a 3) * BitVec.ofInt 64 (e.r 3)
          ≥ 2 * BitVec.ofNat 64 m * BitVec.ofNat 64 m then
        BitVec.ofInt 64 (e.a 0) * BitVec.ofInt 64 (e.r 0) + BitVec.ofInt 64 (e.a 1) * BitVec.ofInt 64 (e.r 1)
        + BitVec.ofInt 64 (e.a 2) * BitVec.ofInt 64 (e.r 2) + BitVec.ofInt 64 (e.a 3) * BitVec.ofInt 64 (e.r 3)
          - 2 * BitVec.ofNat 64 m * BitVec.ofNat 64 m
      else BitVec.ofInt 64 (e.a 0) * BitVec.ofInt 64 (e.r 0) + BitVec.ofInt 64 (e.a 1) * BitVec.ofInt 64 (e.r 1)
        + BitVec.ofInt 64 (e.a 2) * BitVec.ofInt 64 (e.r 2) + BitVec.ofInt 64 (e.a 3) * BitVec.ofInt 64 (e.r 3))
      + BitVec.ofInt 64 (e.a 4) * BitVec.ofInt 64 (e.r 4) := by
    rw [two_mul_sq]
    simp [stepSum, terms, List.finRange_succ, BitVec.add_assoc]
  fin_cases i <;> simp [N5.step, MRG.step, put_apply, hs]

/-! ### jump2, jump -/

theorem N2.init_eq (a : Fin 2 → Int) : N2.jump2Init a = companion a := by
  funext i j; fin_cases i <;> fin_cases j <;> rfl
theorem N3.init_eq (a : Fin 3 → Int) : N3.jump2Init a = companion a := by
  funext i j; fin_cases i <;> fin_cases j <;> rfl
theorem N4.init_eq (a : Fin 4 → Int) : N4.jump2Init a = companion a := by
  funext i j; fin_cases i <;> fin_cases j <;> rfl
theorem N5.init_eq (a : Fin 5 → Int) : N5.jump2Init a = companion a := by
  funext i j; fin_cases i <;> fin_cases j <;> rfl

theorem ite_matrix {n : Nat} (c : Prop) [Decidable c] (b b' : Fin n → Fin n → Int) (r : Fin n → Int) (m : Int) :
    (if c then matrixVecMult b r m else matrixVecMult b' r m) = matrixVecMult (if c then b else b') r m := by
  split <;> rfl

theorem N2.jump2_eq (m : Nat) (e : MRG 2) (s : BitVec 32) : N2.jump2 m e s = MRG.jump2 m e s := by
  refine MRG.ext rfl (funext fun i => ?_)
  unfold N2.jump2 MRG.jump2
  rw [N2.init_eq]
  generalize sqLoop m s.toNat (companion e.a) (fun _ _ => 0) = p
  obtain ⟨b, c⟩ := p
  simp only [ite_matrix]
  fin_cases i <;> simp [put_apply]
theorem N3.jump2_eq (m : Nat) (e : MRG 3) (s : BitVec 32) : N3.jump2 m e s = MRG.jump2 m e s := by
  refine MRG.ext rfl (funext fun i => ?_)
  unfold N3.jump2 MRG.jump2
  rw [N3.init_eq]
  generalize sqLoop m s.toNat (companion e.a) (fun _ _ => 0) = p
  obtain ⟨b, c⟩ := p
  simp only [ite_matrix]
  fin_cases i <;> simp [put_apply]
theorem N4.jump2_eq (m : Nat) (e : MRG 4) (s : BitVec 32) : N4.jump2 m e s = MRG.jump2 m e s := by
  refine MRG.ext rfl (funext fun i => ?_)
  unfold N4.jump2 MRG.jump2
  rw [N4.init_eq]
  generalize sqLoop m s.toNat (companion e.a) (fun _ _ => 0) = p
  obtain ⟨b, c⟩ := p
  simp only [ite_matrix]
  fin_cases i <;> simp [put_apply]
theorem N5.jump2_eq (m : Nat) (e : MRG 5) (s : BitVec 32) : N5.jump2 m e s = MRG.jump2 m e s := by
  refine MRG.ext rfl (funext fun i => ?_)
  unfold N5.jump2 MRG.jump2
  rw [N5.init_eq]
  generalize sqLoop m s.toNat (companion e.a) (fun _ _ => 0) = p
  obtain ⟨b, c⟩ := p
  simp only [ite_matrix]
  fin_cases i <;> simp [put_apply]

theorem N2.jumpLoop_eq (m : Nat) : ∀ fuel i s e, N2.jumpLoop m fuel i s e = MRG.jumpLoop m fuel i s e
  | 0, _, _, _ => rfl
  | fuel + 1, i, s, e => by unfold N2.jumpLoop MRG.jumpLoop; rw [N2.jump2_eq, N2.jumpLoop_eq m fuel]
theorem N3.jumpLoop_eq (m : Nat) : ∀ fuel i s e, N3.jumpLoop m fuel i s e = MRG.jumpLoop m fuel i s e
  | 0, _, _, _ => rfl
  | fuel + 1, i, s, e => by unfold N3.jumpLoop MRG.jumpLoop; rw [N3.jump2_eq, N3.jumpLoop_eq m fuel]
theorem N4.jumpLoop_eq (m : Nat) : ∀ fuel i s e, N4.jumpLoop m fuel i s e = MRG.jumpLoop m fuel i s e
  | 0, _, _, _ => rfl
  | fuel + 1, i, s, e => by unfold N4.jumpLoop MRG.jumpLoop; rw [N4.jump2_eq, N4.jumpLoop_eq m fuel]
theorem N5.jumpLoop_eq (m : Nat) : ∀ fuel i s e, N5.jumpLoop m fuel i s e = MRG.jumpLoop m fuel i s e
  | 0, _, _, _ => rfl
  | fuel + 1, i, s, e => by unfold N5.jumpLoop MRG.jumpLoop; rw [N5.jump2_eq, N5.jumpLoop_eq m fuel]

theorem N2.jump_eq (m : Nat) (e : MRG 2) (s : BitVec 64) : N2.jump m e s = MRG.jump m e s := by
  unfold N2.jump MRG.jump
  rw [N2.jumpLoop_eq, show N2.step m = MRG.step m from funext (N2.step_eq m)]
theorem N3.jump_eq (m : Nat) (e : MRG 3) (s : BitVec 64) : N3.jump m e s = MRG.jump m e s := by
  unfold N3.jump MRG.jump
  rw [N3.jumpLoop_eq, show N3.step m = MRG.step m from funext (N3.step_eq m)]
theorem N4.jump_eq (m : Nat) (e : MRG 4) (s : BitVec 64) : N4.jump m e s = MRG.jump m e s := by
  unfold N4.jump MRG.jump
  rw [N4.jumpLoop_eq, show N4.step m = MRG.step m from funext (N4.step_eq m)]
theorem N5.jump_eq (m : Nat) (e : MRG 5) (s : BitVec 64) : N5.jump m e s = MRG.jump m e s := by
  unfold N5.jump MRG.jump
  rw [N5.jumpLoop_eq, show N5.step m = MRG.step m from funext (N5.step_eq m)]

/-! ### int_math on the host -/

theorem inverse_host (a m : Int) : inverse false a m = moduloInverse a m := by
  unfold inverse moduloInverse; simp

theorem elimRow_host {n : Nat} (m : Int) (i : Fin n) (s : GState n) (j : Fin n) :
    elimRow false m i s j = gaussElimRow m i s j := by
  unfold elimRow gaussElimRow; rw [inverse_host]

theorem triangular_host {n : Nat} (m : Int) : ∀ (l : List (Fin n)) (k : Nat) (s : GState n),
    triangular false m l k s = gaussTriangular m l k s
  | [], _, _ => rfl
  | i :: is, k, s => by
    unfold triangular gaussTriangular
    simp only [inverse_host, show elimRow false m i = gaussElimRow m i from funext fun s => funext fun j => elimRow_host m i s j,
      triangular_host m is]

theorem solve_host {n : Nat} (a : Fin n → Fin n → Int) (b : Fin n → Int) (m : Int) : solve false a b m = gauss a b m := by
  unfold solve gauss
  simp only [triangular_host, if_true]

/-! ### backward -/

/-- The values after `backward`. -/
def N2.shifted (r : Fin 2 → Int) (t : Int) : Fin 2 → Int :=
  let r := put r 0 (r 1)
  let r := put r 1 (t)
  r

theorem N2.backward_shifted (cuda : Bool) (m : Nat) (e : MRG 2) : N2.backward cuda m e = (do
  let r := e.r
  let t ←
    if e.a 1 ≠ 0 then do
      let t := r 0
      let t ← subMod t (mulMod (e.a 0) (r 1) m) m
      let i ← inverse cuda (e.a 1) m
      pure (mulMod t i m)
    else if e.a 0 ≠ 0 then do
      let t := r 1
      let i ← inverse cuda (e.a 0) m
      pure (mulMod t i m)
    else pure 0
  return { e with r := N2.shifted r t }) := rfl

/-- The values after `backward`. -/
def N3.shifted (r : Fin 3 → Int) (t : Int) : Fin 3 → Int :=
  let r := put r 0 (r 1)
  let r := put r 1 (r 2)
  let r := put r 2 (t)
  r

theorem N3.backward_shifted (cuda : Bool) (m : Nat) (e : MRG 3) : N3.backward cuda m e = (do
  let r := e.r
  let t ←
    if e.a 2 ≠ 0 then do
      let t := r 0
      let t ← subMod t (mulMod (e.a 0) (r 1) m) m
      let t ← subMod t (mulMod (e.a 1) (r 2) m) m
      let i ← inverse cuda (e.a 2) m
      pure (mulMod t i m)
    else if e.a 1 ≠ 0 then do
      let t := r 1
      let t ← subMod t (mulMod (e.a 0) (r 2) m) m
      let i ← inverse cuda (e.a 1) m
      pure (mulMod t i m)
    else if e.a 0 ≠ 0 then do
      let t := r 2
      let i ← inverse cuda (e.a 0) m
      pure (mulMod t i m)
    else pure 0
  return { e with r := N3.shifted r t }) := rfl

/-- The values after `backward`. -/
def N4.shifted (r : Fin 4 → Int) (t : Int) : Fin 4 → Int :=
  let r := put r 0 (r 1)
  let r := put r 1 (r 2)
  let r := put r 2 (r 3)
  let r := put r 3 (t)
  r

theorem N4.backward_shifted (cuda : Bool) (m : Nat) (e : MRG 4) : N4.backward cuda m e = (do
  let r := e.r
  let t ←
    if e.a 3 ≠ 0 then do
      let t := r 0
      let t ← subMod t (mulMod (e.a 0) (r 1) m) m
      let t ← subMod t (mulMod (e.a 1) (r 2) m) m
      let t ← subMod t (mulMod (e.a 2) (r 3) m) m
      let i ← inverse cuda (e.a 3) m
      pure (mulMod t i m)
    else if e.a 2 ≠ 0 then do
      let t := r 1
      let t ← subMod t (mulMod (e.a 0) (r 2) m) m
      let t ← subMod t (mulMod (e.a 1) (r 3) m) m
      let i ← inverse cuda (e.a 2) m
      pure (mulMod t i m)
    else if e.a 1 ≠ 0 then do
      let t := r 2
      let t ← subMod t (mulMod (e.a 0) (r 3) m) m
      let i ← inverse cuda (e.a 1) m
      pure (mulMod t i m)
    else if e.a 0 ≠ 0 then do
      let t := r 3
      let i ← inverse cuda (e.a 0) m
      pure (mulMod t i m)
    else pure 0
  return { e with r := N4.shifted r t }) := rfl

/-- The values after `backward`. -/
def N5.shifted (r : Fin 5 → Int) (t : Int) : Fin 5 → Int :=
  let r := put r 0 (r 1)
  let r := put r 1 (r 2)
  let r := put r 2 (r 3)
  let r := put r 3 (r 4)
  let r := put r 4 (t)
  r

theorem N5.backward_shifted (cuda : Bool) (m : Nat) (e : MRG 5) : N5.backward cuda m e = (do
  let r := e.r
  let t ←
    if e.a 4 ≠ 0 then do
      let t := r 0
      let t ← subMod t (mulMod (e.a 0) (r 1) m) m
      let t ← subMod t (mulMod (e.a 1) (r 2) m) m
      let t ← subMod t (mulMod (e.a 2) (r 3) m) m
      let t ← subMod t (mulMod (e.a 3) (r 4) m) m
      let i ← inverse cuda (e.a 4) m
      pure (mulMod t i m)
    else if e.a 3 ≠ 0 then do
      let t := r 0
      let t ← subMod t (mulMod (e.a 0) (r 1) m) m
      let t ← subMod t (mulMod (e.a 1) (r 2) m) m
      let t ← subMod t (mulMod (e.a 2) (r 3) m) m
      let i ← inverse cuda (e.a 3) m
      pure (mulMod t i m)
    else if e.a 2 ≠ 0 then do
      let t := r 1
      let t ← subMod t (mulMod (e.a 0) (r 2) m) m
      let t ← subMod t (mulMod (e.a 1) (r 3) m) m
      let i ← inverse cuda (e.a 2) m
      pure (mulMod t i m)
    else if e.a 1 ≠ 0 then do
      let t := r 2
      let t ← subMod t (mulMod (e.a 0) (r 3) m) m
      let i ← inverse cuda (e.a 1) m
      pure (mulMod t i m)
    else if e.a 0 ≠ 0 then do
      let t := r 3
      let i ← inverse cuda (e.a 0) m
      pure (mulMod t i m)
    else pure 0
  return { e with r := N5.shifted r t }) := rfl

/-- The value that `backward` appends. -/
theorem backValue_none {n : Nat} (m : Nat) (e : MRG n) (h : ∀ i, e.a i = 0) : e.backValue m = .ok 0 := by
  unfold backValue
  rw [List.find?_eq_none.2 (fun x _ => by simp [h x])]

theorem backValue_some {n : Nat} (m : Nat) (e : MRG n) (k : Fin n) (hk : e.a k ≠ 0) (h : ∀ i, k < i → e.a i = 0) :
    e.backValue m = (do
      let t ← rd e.r (win n k)
      let t ← (List.finRange k.val).foldlM (fun t (j : Fin k.val) => do
        let x ← rd e.r (win n k + 1 + j.val)
        subMod t (mulMod (e.a ⟨j.val, by omega⟩) x m) m) t
      let i ← moduloInverse (e.a k) m
      return mulMod t i m) := by
  unfold backValue
  have : (List.finRange n).reverse.find? (fun k => e.a k ≠ 0) = some k := by
    rw [List.find?_eq_some_iff_append]
    refine ⟨by simpa using hk, ((List.finRange n).drop (k.val + 1)).reverse, ((List.finRange n).take k.val).reverse, ?_, ?_⟩
    · have hl : k.val < (List.finRange n).length := by simp
      have h1 : List.finRange n = (List.finRange n).take k.val ++ k :: (List.finRange n).drop (k.val + 1) := by
        conv_lhs => rw [← List.take_append_drop k.val (List.finRange n), ← List.getElem_cons_drop hl]
        simp
      conv_lhs => rw [h1]
      simp
    · intro x hx
      rw [List.mem_reverse, List.mem_drop_iff_getElem] at hx
      obtain ⟨i, hi, rfl⟩ := hx
      have := h ((List.finRange n)[k.val + 1 + i]) (by rw [Fin.lt_def]; simp; omega)
      simpa using this
  rw [this]

theorem N2.backward_eq (m : Nat) (e : MRG 2) : N2.backward false m e = MRG.backward m e := by
  have hr : ∀ t, N2.shifted e.r t = fun i : Fin 2 => if h : i.val + 1 < 2 then e.r ⟨i.val + 1, h⟩ else t := by
    intro t; funext i; fin_cases i <;> simp [put_apply, N2.shifted]
  rw [N2.backward_shifted]
  unfold MRG.backward
  simp only [hr, inverse_host]
  by_cases h1 : e.a 1 = 0
  swap
  · rw [backValue_some m e 1 h1 (by intro i hi; fin_cases i <;> first | assumption | simp at hi)]
    simp [h1, rd, win, List.finRange_succ, res_ok_bind, res_pure_bind, res_bind_assoc]
  by_cases h0 : e.a 0 = 0
  swap
  · rw [backValue_some m e 0 h0 (by intro i hi; fin_cases i <;> first | assumption | simp at hi)]
    simp [h1, h0, rd, win, List.finRange_succ, res_ok_bind, res_pure_bind, res_bind_assoc]
  rw [backValue_none m e (by intro i; fin_cases i <;> assumption)]
  simp [h0, h1, res_ok_bind, res_pure_bind]

theorem N3.backward_eq (m : Nat) (e : MRG 3) : N3.backward false m e = MRG.backward m e := by
  have hr : ∀ t, N3.shifted e.r t = fun i : Fin 3 => if h : i.val + 1 < 3 then e.r ⟨i.val + 1, h⟩ else t := by
    intro t; funext i; fin_cases i <;> simp [put_apply, N3.shifted]
  rw [N3.backward_shifted]
  unfold MRG.backward
  simp only [hr, inverse_host]
  by_cases h2 : e.a 2 = 0
  swap
  · rw [backValue_some m e 2 h2 (by intro i hi; fin_cases i <;> first | assumption | simp at hi)]
    simp [h2, rd, win, List.finRange_succ, res_ok_bind, res_pure_bind, res_bind_assoc]
  by_cases h1 : e.a 1 = 0
  swap
  · rw [backValue_some m e 1 h1 (by intro i hi; fin_cases i <;> first | assumption | simp at hi)]
    simp [h2, h1, rd, win, List.finRange_succ, res_ok_bind, res_pure_bind, res_bind_assoc]
  by_cases h0 : e.a 0 = 0
  swap
  · rw [backValue_some m e 0 h0 (by intro i hi; fin_cases i <;> first | assumption | simp at hi)]
    simp [h2, h1, h0, rd, win, List.finRange_succ, res_ok_bind, res_pure_bind, res_bind_assoc]
  rw [backValue_none m e (by intro i; fin_cases i <;> assumption)]
  simp [h0, h1, h2, res_ok_bind, res_pure_bind]

theorem N4.backward_eq (m : Nat) (e : MRG 4) : N4.backward false m e = MRG.backward m e := by
  have hr : ∀ t, N4.shifted e.r t = fun i : Fin 4 => if h : i.val + 1 < 4 then e.r ⟨i.val + 1, h⟩ else t := by
    intro t; funext i; fin_cases i <;> simp [put_apply, N4.shifted]
  rw [N4.backward_shifted]
  unfold MRG.backward
  simp only [hr, inverse_host]
  by_cases h3 : e.a 3 = 0
  swap
  · rw [backValue_some m e 3 h3 (by intro i hi; fin_cases i <;> first | assumption | simp at hi)]
    simp [h3, rd, win, List.finRange_succ, res_ok_bind, res_pure_bind, res_bind_assoc]
  by_cases h2 : e.a 2 = 0
  swap
  · rw [backValue_some m e 2 h2 (by intro i hi; fin_cases i <;> first | assumption | simp at hi)]
    simp [h3, h2, rd, win, List.finRange_succ, res_ok_bind, res_pure_bind, res_bind_assoc]
  by_cases h1 : e.a 1 = 0
  swap
  · rw [backValue_some m e 1 h1 (by intro i hi; fin_cases i <;> first | assumption | simp at hi)]
    simp [h3, h2, h1, rd, win, List.finRange_succ, res_ok_bind, res_pure_bind, res_bind_assoc]
  by_cases h0 : e.a 0 = 0
  swap
  · rw [backValue_some m e 0 h0 (by intro i hi; fin_cases i <;> first | assumption | simp at hi)]
    simp [h3, h2, h1, h0, rd, win, List.finRange_succ, res_ok_bind, res_pure_bind, res_bind_assoc]
  rw [backValue_none m e (by intro i; fin_cases i <;> assumption)]
  simp [h0, h1, h2, h3, res_ok_bind, res_pure_bind]

theorem N5.backward_eq (m : Nat) (e : MRG 5) : N5.backward false m e = MRG.backward m e := by
  have hr : ∀ t, N5.shifted e.r t = fun i : Fin 5 => if h : i.val + 1 < 5 then e.r ⟨i.val + 1, h⟩ else t := by
    intro t; funext i; fin_cases i <;> simp [put_apply, N5.shifted]
  rw [N5.backward_shifted]
  unfold MRG.backward
  simp only [hr, inverse_host]
  by_cases h4 : e.a 4 = 0
  swap
  · rw [backValue_some m e 4 h4 (by intro i hi; fin_cases i <;> first | assumption | simp at hi)]
    simp [h4, rd, win, List.finRange_succ, res_ok_bind, res_pure_bind, res_bind_assoc]
  by_cases h3 : e.a 3 = 0
  swap
  · rw [backValue_some m e 3 h3 (by intro i hi; fin_cases i <;> first | assumption | simp at hi)]
    simp [h4, h3, rd, win, List.finRange_succ, res_ok_bind, res_pure_bind, res_bind_assoc]
  by_cases h2 : e.a 2 = 0
  swap
  · rw [backValue_some m e 2 h2 (by intro i hi; fin_cases i <;> first | assumption | simp at hi)]
    simp [h4, h3, h2, rd, win, List.finRange_succ, res_ok_bind, res_pure_bind, res_bind_assoc]
  by_cases h1 : e.a 1 = 0
  swap
  · rw [backValue_some m e 1 h1 (by intro i hi; fin_cases i <;> first | assumption | simp at hi)]
    simp [h4, h3, h2, h1, rd, win, List.finRange_succ, res_ok_bind, res_pure_bind, res_bind_assoc]
  by_cases h0 : e.a 0 = 0
  swap
  · rw [backValue_some m e 0 h0 (by intro i hi; fin_cases i <;> first | assumption | simp at hi)]
    simp [h4, h3, h2, h1, h0, rd, win, List.finRange_succ, res_ok_bind, res_pure_bind, res_bind_assoc]
  rw [backValue_none m e (by intro i; fin_cases i <;> assumption)]
  simp [h0, h1, h2, h3, h4, res_ok_bind, res_pure_bind]

/-! ### split -/

theorem splitAt_zero {n : Nat} (m : Nat) (e : MRG n) (s k : BitVec 32) : e.jump m (k.setWidth 64 + 1) = e.splitAt m s k 0 := rfl

theorem splitAt_succ {n : Nat} (m : Nat) (e : MRG n) (s k : BitVec 32) (i : Nat) :
    (e.splitAt m s k i).jump m (s.setWidth 64) = e.splitAt m s k (i + 1) := by
  unfold splitAt
  rw [Function.iterate_succ_apply']

theorem N2.backwardN_eq (m : Nat) : ∀ k e, N2.backwardN false m k e = MRG.backwardN m k e
  | 0, _ => rfl
  | k + 1, e => by
    unfold N2.backwardN MRG.backwardN
    rw [N2.backward_eq]
    cases MRG.backward m e with
    | ok e' => exact N2.backwardN_eq m k e'
    | throws => rfl
    | ub => rfl
theorem N2.split_eq (m : Nat) (e : MRG 2) (s k : BitVec 32) : N2.split false m e s k = MRG.split m e s k := by
  unfold N2.split MRG.split
  simp only [true_and]
  split
  · rfl
  split
  · simp only [N2.jump_eq, solve_host, N2.backwardN_eq, splitAt_zero m e s k, splitAt_succ]
    have hA : (fun i : Fin 2 => (e.splitAt m s k (2 + i.val)).r 0) =
        ![(e.splitAt m s k 2).r 0, (e.splitAt m s k 3).r 0] := by
      funext i; fin_cases i <;> rfl
    have hB : (fun i j : Fin 2 => (e.splitAt m s k (2 - 1 + i.val - j.val)).r 0) = square 2
        [(e.splitAt m s k 1).r 0, (e.splitAt m s k 0).r 0, (e.splitAt m s k 2).r 0, (e.splitAt m s k 1).r 0] := by
      funext i j; fin_cases i <;> fin_cases j <;> rfl
    rw [hA, hB]
    have hp : ∀ p a : Fin 2 → Int, put (put (p) 0 (a 0)) 1 (a 1) = a := by
      intro p a; funext i; fin_cases i <;> simp [put_apply]
    have hr : ∀ r : Fin 2 → Int, put (put (r) 0 ((e.splitAt m s k 1).r 0)) 1 ((e.splitAt m s k 0).r 0) = fun i : Fin 2 => (e.splitAt m s k (2 - 1 - i.val)).r 0 := by
      intro r; funext i; fin_cases i <;> simp [put_apply]
    rw [← hr (e.splitAt m s k (2 * 2 - 1)).r]
    simp only [hp, Nat.reduceAdd, Nat.reduceMul, Nat.reduceSub]
    generalize gauss _ _ _ = g
    cases g <;> rfl
  · rfl

theorem N3.backwardN_eq (m : Nat) : ∀ k e, N3.backwardN false m k e = MRG.backwardN m k e
  | 0, _ => rfl
  | k + 1, e => by
    unfold N3.backwardN MRG.backwardN
    rw [N3.backward_eq]
    cases MRG.backward m e with
    | ok e' => exact N3.backwardN_eq m k e'
    | throws => rfl
    | ub => rfl
theorem N3.split_eq (m : Nat) (e : MRG 3) (s k : BitVec 32) : N3.split false m e s k = MRG.split m e s k := by
  unfold N3.split MRG.split
  simp only [true_and]
  split
  · rfl
  split
  · simp only [N3.jump_eq, solve_host, N3.backwardN_eq, splitAt_zero m e s k, splitAt_succ]
    have hA : (fun i : Fin 3 => (e.splitAt m s k (3 + i.val)).r 0) =
        ![(e.splitAt m s k 3).r 0, (e.splitAt m s k 4).r 0, (e.splitAt m s k 5).r 0] := by
      funext i; fin_cases i <;> rfl
    have hB : (fun i j : Fin 3 => (e.splitAt m s k (3 - 1 + i.val - j.val)).r 0) = square 3
        [(e.splitAt m s k 2).r 0, (e.splitAt m s k 1).r 0, (e.splitAt m s k 0).r 0, (e.splitAt m s k 3).r 0, (e.splitAt m s k 2).r 0, (e.splitAt m s k 1).r 0, (e.splitAt m s k 4).r 0, (e.splitAt m s k 3).r 0, (e.splitAt m s k 2).r 0] := by
      funext i j; fin_cases i <;> fin_cases j <;> rfl
    rw [hA, hB]
    have hp : ∀ p a : Fin 3 → Int, put (put (put (p) 0 (a 0)) 1 (a 1)) 2 (a 2) = a := by
      intro p a; funext i; fin_cases i <;> simp [put_apply]
    have hr : ∀ r : Fin 3 → Int, put (put (put (r) 0 ((e.splitAt m s k 2).r 0)) 1 ((e.splitAt m s k 1).r 0)) 2 ((e.splitAt m s k 0).r 0) = fun i : Fin 3 => (e.splitAt m s k (3 - 1 - i.val)).r 0 := by
      intro r; funext i; fin_cases i <;> simp [put_apply]
    rw [← hr (e.splitAt m s k (2 * 3 - 1)).r]
    simp only [hp, Nat.reduceAdd, Nat.reduceMul, Nat.reduceSub]
    generalize gauss _ _ _ = g
    cases g <;> rfl
  · rfl

theorem N4.backwardN_eq (m : Nat) : ∀ k e, N4.backwardN false m k e = MRG.backwardN m k e
  | 0, _ => rfl
  | k + 1, e => by
    unfold N4.backwardN MRG.backwardN
    rw [N4.backward_eq]
    cases MRG.backward m e with
    | ok e' => exact N4.backwardN_eq m k e'
    | throws => rfl
    | ub => rfl
theorem N4.split_eq (m : Nat) (e : MRG 4) (s k : BitVec 32) : N4.split false m e s k = MRG.split m e s k := by
  unfold N4.split MRG.split
  simp only [true_and]
  split
  · rfl
  split
  · simp only [N4.jump_eq, solve_host, N4.backwardN_eq, splitAt_zero m e s k, splitAt_succ]
    have hA : (fun i : Fin 4 => (e.splitAt m s k (4 + i.val)).r 0) =
        ![(e.splitAt m s k 4).r 0, (e.splitAt m s k 5).r 0, (e.splitAt m s k 6).r 0, (e.splitAt m s k 7).r 0] := by
      funext i; fin_cases i <;> rfl
    have hB : (fun i j : Fin 4 => (e.splitAt m s k (4 - 1 + i.val - j.val)).r 0) = square 4
        [(e.splitAt m s k 3).r 0, (e.splitAt m s k 2).r 0, (e.splitAt m s k 1).r 0, (e.splitAt m s k 0).r 0, (e.splitAt m s k 4).r 0, (e.splitAt m s k 3).r 0, (e.splitAt m s k 2).r 0, (e.splitAt m s k 1).r 0, (e.splitAt m s k 5).r 0, (e.splitAt m s k 4).r 0, (e.splitAt m s k 3).r 0, (e.splitAt m s k 2).r 0, (e.splitAt m s k 6).r 0, (e.splitAt m s k 5).r 0, (e.splitAt m s k 4).r 0, (e.splitAt m s k 3).r 0] := by
      funext i j; fin_cases i <;> fin_cases j <;> rfl
    rw [hA, hB]
    have hp : ∀ p a : Fin 4 → Int, put (put (put (put (p) 0 (a 0)) 1 (a 1)) 2 (a 2)) 3 (a 3) = a := by
      intro p a; funext i; fin_cases i <;> simp [put_apply]
    have hr : ∀ r : Fin 4 → Int, put (put (put (put (r) 0 ((e.splitAt m s k 3).r 0)) 1 ((e.splitAt m s k 2).r 0)) 2 ((e.splitAt m s k 1).r 0)) 3 ((e.splitAt m s k 0).r 0) = fun i : Fin 4 => (e.splitAt m s k (4 - 1 - i.val)).r 0 := by
      intro r; funext i; fin_cases i <;> simp [put_apply]
    rw [← hr (e.splitAt m s k (2 * 4 - 1)).r]
    simp only [hp, Nat.reduceAdd, Nat.reduceMul, Nat.reduceSub]
    generalize gauss _ _ _ = g
    cases g <;> rfl
  · rfl

theorem N5.backwardN_eq (m : Nat) : ∀ k e, N5.backwardN false m k e = MRG.backwardN m k e
  | 0, _ => rfl
  | k + 1, e => by
    unfold N5.backwardN MRG.backwardN
    rw [N5.backward_eq]
    cases MRG.backward m e with
    | ok e' => exact N5.backwardN_eq m k e'
    | throws => rfl
    | ub => rfl
theorem N5.split_eq (m : Nat) (e : MRG 5) (s k : BitVec 32) : N5.split false m e s k = MRG.split m e s k := by
  unfold N5.split MRG.split
  simp only [true_and]
  split
  · rfl
  split
  · simp only [N5.jump_eq, solve_host, N5.backwardN_eq, splitAt_zero m e s k, splitAt_succ]
    have hA : (fun i : Fin 5 => (e.splitAt m s k (5 + i.val)).r 0) =
        ![(e.splitAt m s k 5).r 0, (e.splitAt m s k 6).r 0, (e.splitAt m s k 7).r 0, (e.splitAt m s k 8).r 0, (e.splitAt m s k 9).r 0] := by
      funext i; fin_cases i <;> rfl
    have hB : (fun i j : Fin 5 => (e.splitAt m s k (5 - 1 + i.val - j.val)).r 0) = square 5
        [(e.splitAt m s k 4).r 0, (e.splitAt m s k 3).r 0, (e.splitAt m s k 2).r 0, (e.splitAt m s k 1).r 0, (e.splitAt m s k 0).r 0, (e.splitAt m s k 5).r 0, (e.splitAt m s k 4).r 0, (e.splitAt m s k 3).r 0, (e.splitAt m s k 2).r 0, (e.splitAt m s k 1).r 0, (e.splitAt m s k 6).r 0, (e.splitAt m s k 5).r 0, (e.splitAt m s k 4).r 0, (e.splitAt m s k 3).r 0, (e.splitAt m s k 2).r 0, (e.splitAt m s k 7).r 0, (e.splitAt m s k 6).r 0, (e.splitAt m s k 5).r 0, (e.splitAt m s k 4).r 0, (e.splitAt m s k 3).r 0, (e.splitAt m s k 8).r 0, (e.splitAt m s k 7).r 0, (e.splitAt m s k 6).r 0, (e.splitAt m s k 5).r 0, (e.splitAt m s k 4).r 0] := by
      funext i j; fin_cases i <;> fin_cases j <;> rfl
    rw [hA, hB]
    have hp : ∀ p a : Fin 5 → Int, put (put (put (put (put (p) 0 (a 0)) 1 (a 1)) 2 (a 2)) 3 (a 3)) 4 (a 4) = a := by
      intro p a; funext i; fin_cases i <;> simp [put_apply]
    have hr : ∀ r : Fin 5 → Int, put (put (put (put (put (r) 0 ((e.splitAt m s k 4).r 0)) 1 ((e.splitAt m s k 3).r 0)) 2 ((e.splitAt m s k 2).r 0)) 3 ((e.splitAt m s k 1).r 0)) 4 ((e.splitAt m s k 0).r 0) = fun i : Fin 5 => (e.splitAt m s k (5 - 1 - i.val)).r 0 := by
      intro r; funext i; fin_cases i <;> simp [put_apply]
    rw [← hr (e.splitAt m s k (2 * 5 - 1)).r]
    simp only [hp, Nat.reduceAdd, Nat.reduceMul, Nat.reduceSub]
    generalize gauss _ _ _ = g
    cases g <;> rfl
  · rfl

/-! ### seeding -/

theorem put_ite {n : Nat} (r : Fin n → Int) (i : Fin n) (x m : Int) :
    (if put r i x i < 0 then put (put r i x) i (put r i x i + m) else put r i x) = put r i (if x < 0 then x + m else x) := by
  have : put r i x i = x := by rw [put_apply, if_pos rfl]
  rw [this]
  split
  · funext j; simp only [put_apply]; split <;> rfl
  · rfl

theorem N2.seed_eq (m : Nat) (e : MRG 2) (s : BitVec 64) : N2.seed m e s = MRG.seed m e s := by
  refine MRG.ext rfl (funext fun i => ?_)
  fin_cases i <;> simp [N2.seed, MRG.seed, put_apply, reduceSigned]
theorem N2.seedN_eq (m : Nat) (e : MRG 2) (s : Fin 2 → BitVec 32) : N2.seedN m e (s 0) (s 1) = MRG.seedN m e s := by
  refine MRG.ext rfl (funext fun i => ?_)
  unfold N2.seedN MRG.seedN
  simp only [put_ite, reduceSigned]
  fin_cases i <;> simp [put_apply]
theorem N2.seedGen_eq (m : Nat) (e : MRG 2) (g : Nat → Int) : N2.seedGen m e g = MRG.seedGen m e g := by
  refine MRG.ext rfl (funext fun i => ?_)
  fin_cases i <;> simp [N2.seedGen, MRG.seedGen, put_apply]
theorem N3.seed_eq (m : Nat) (e : MRG 3) (s : BitVec 64) : N3.seed m e s = MRG.seed m e s := by
  refine MRG.ext rfl (funext fun i => ?_)
  fin_cases i <;> simp [N3.seed, MRG.seed, put_apply, reduceSigned]
theorem N3.seedN_eq (m : Nat) (e : MRG 3) (s : Fin 3 → BitVec 32) : N3.seedN m e (s 0) (s 1) (s 2) = MRG.seedN m e s := by
  refine MRG.ext rfl (funext fun i => ?_)
  unfold N3.seedN MRG.seedN
  simp only [put_ite, reduceSigned]
  fin_cases i <;> simp [put_apply]
theorem N3.seedGen_eq (m : Nat) (e : MRG 3) (g : Nat → Int) : N3.seedGen m e g = MRG.seedGen m e g := by
  refine MRG.ext rfl (funext fun i => ?_)
  fin_cases i <;> simp [N3.seedGen, MRG.seedGen, put_apply]
theorem N4.seed_eq (m : Nat) (e : MRG 4) (s : BitVec 64) : N4.seed m e s = MRG.seed m e s := by
  refine MRG.ext rfl (funext fun i => ?_)
  fin_cases i <;> simp [N4.seed, MRG.seed, put_apply, reduceSigned]
theorem N4.seedN_eq (m : Nat) (e : MRG 4) (s : Fin 4 → BitVec 32) : N4.seedN m e (s 0) (s 1) (s 2) (s 3) = MRG.seedN m e s := by
  refine MRG.ext rfl (funext fun i => ?_)
  unfold N4.seedN MRG.seedN
  simp only [put_ite, reduceSigned]
  fin_cases i <;> simp [put_apply]
theorem N4.seedGen_eq (m : Nat) (e : MRG 4) (g : Nat → Int) : N4.seedGen m e g = MRG.seedGen m e g := by
  refine MRG.ext rfl (funext fun i => ?_)
  fin_cases i <;> simp [N4.seedGen, MRG.seedGen, put_apply]
theorem N5.seed_eq (m : Nat) (e : MRG 5) (s : BitVec 64) : N5.seed m e s = MRG.seed m e s := by
  refine MRG.ext rfl (funext fun i => ?_)
  fin_cases i <;> simp [N5.seed, MRG.seed, put_apply, reduceSigned]
theorem N5.seedN_eq (m : Nat) (e : MRG 5) (s : Fin 5 → BitVec 32) : N5.seedN m e (s 0) (s 1) (s 2) (s 3) (s 4) = MRG.seedN m e s := by
  refine MRG.ext rfl (funext fun i => ?_)
  unfold N5.seedN MRG.seedN
  simp only [put_ite, reduceSigned]
  fin_cases i <;> simp [put_apply]
theorem N5.seedGen_eq (m : Nat) (e : MRG 5) (g : Nat → Int) : N5.seedGen m e g = MRG.seedGen m e g := by
  refine MRG.ext rfl (funext fun i => ?_)
  fin_cases i <;> simp [N5.seedGen, MRG.seedGen, put_apply]
theorem N5.seedGenYarn5s_eq (m : Nat) (e : MRG 5) (g : Nat → Int) : N5.seedGenYarn5s m e g = MRG.seedGenYarn5s m e g := by
  refine MRG.ext rfl (funext fun i => ?_)
  fin_cases i <;> simp [N5.seedGenYarn5s, MRG.seedGenYarn5s, put_apply]

/-! ### CUDA: where the host does not throw, CUDA gives the same -/

theorem bind_ok_iff {α β : Type} {x : Res α} {f : α → Res β} {y : β} :
    (x >>= f) = .ok y ↔ ∃ a, x = .ok a ∧ f a = .ok y := by
  cases x with
  | ok a => exact ⟨fun h => ⟨a, rfl, h⟩, fun ⟨a', h1, h2⟩ => by cases h1; exact h2⟩
  | throws => exact ⟨fun h => (nomatch h), fun ⟨_, h1, _⟩ => (nomatch h1)⟩
  | ub => exact ⟨fun h => (nomatch h), fun ⟨_, h1, _⟩ => (nomatch h1)⟩

theorem inverse_cuda {a m x : Int} (h : inverse false a m = .ok x) : inverse true a m = .ok x := by
  unfold inverse at h ⊢
  simp only [true_and, Bool.true_eq_false, false_and, if_false] at h ⊢
  split at h
  · exact (nomatch h)
  · obtain ⟨p, h1, h2⟩ := bind_ok_iff.1 h
    refine bind_ok_iff.2 ⟨p, h1, ?_⟩
    obtain ⟨a', f⟩ := p
    simp only at h2 ⊢
    split at h2
    · exact (nomatch h2)
    · exact h2

theorem elimRow_cuda {n : Nat} {m : Int} {i : Fin n} {s : GState n} {j : Fin n} {x : GState n}
    (h : elimRow false m i s j = .ok x) : elimRow true m i s j = .ok x := by
  unfold elimRow at h ⊢
  split at h
  · rw [if_pos ‹_›]
    obtain ⟨t, h1, h2⟩ := bind_ok_iff.1 h
    exact bind_ok_iff.2 ⟨t, inverse_cuda h1, h2⟩
  · rw [if_neg ‹_›]; exact h

theorem foldlM_cuda {n : Nat} {m : Int} {i : Fin n} : ∀ (l : List (Fin n)) (s x : GState n),
    l.foldlM (elimRow false m i) s = .ok x → l.foldlM (elimRow true m i) s = .ok x
  | [], _, _, h => h
  | j :: l, s, x, h => by
    rw [List.foldlM_cons] at h ⊢
    obtain ⟨y, h1, h2⟩ := bind_ok_iff.1 h
    exact bind_ok_iff.2 ⟨y, elimRow_cuda h1, foldlM_cuda l y x h2⟩

theorem triangular_cuda {n : Nat} {m : Int} : ∀ (l : List (Fin n)) (k : Nat) (s : GState n) (x : Nat × GState n),
    triangular false m l k s = .ok x → triangular true m l k s = .ok x
  | [], _, _, _, h => h
  | i :: l, k, s, x, h => by
    unfold triangular at h ⊢
    simp only at h ⊢
    split at h
    · rw [if_pos ‹_›]; exact h
    · rw [if_neg ‹_›]
      obtain ⟨t, h1, h2⟩ := bind_ok_iff.1 h
      obtain ⟨u, h3, h4⟩ := bind_ok_iff.1 h2
      exact bind_ok_iff.2 ⟨t, inverse_cuda h1, bind_ok_iff.2 ⟨u, foldlM_cuda _ _ _ h3, triangular_cuda l _ _ _ h4⟩⟩

theorem solve_cuda {n : Nat} {a : Fin n → Fin n → Int} {b : Fin n → Int} {m : Int} {x : Fin n → Int}
    (h : solve false a b m = .ok x) : solve true a b m = .ok x := by
  unfold solve at h ⊢
  obtain ⟨p, h1, h2⟩ := bind_ok_iff.1 h
  refine bind_ok_iff.2 ⟨p, triangular_cuda _ _ _ _ h1, ?_⟩
  obtain ⟨rank, s⟩ := p
  obtain ⟨u, h3, h4⟩ := bind_ok_iff.1 h2
  exact h4

theorem N2.backward_cuda {m : Nat} {e x : MRG 2} (h : N2.backward false m e = .ok x) : N2.backward true m e = .ok x := by
  rw [N2.backward_shifted] at h ⊢
  simp only at h ⊢
  split at h
  · rw [if_pos ‹_›]
    obtain ⟨t0, a0, b0⟩ := bind_ok_iff.1 h
    obtain ⟨i, hi, hv⟩ := bind_ok_iff.1 b0
    exact bind_ok_iff.2 ⟨t0, a0, bind_ok_iff.2 ⟨i, inverse_cuda hi, hv⟩⟩
  rw [if_neg ‹_›]
  split at h
  · rw [if_pos ‹_›]
    obtain ⟨i, hi, hv⟩ := bind_ok_iff.1 h
    exact bind_ok_iff.2 ⟨i, inverse_cuda hi, hv⟩
  rw [if_neg ‹_›]
  exact h
theorem N2.backwardN_cuda {m : Nat} : ∀ k (e x : MRG 2), N2.backwardN false m k e = .ok x → N2.backwardN true m k e = .ok x
  | 0, _, _, h => h
  | k + 1, e, x, h => by
    unfold N2.backwardN at h ⊢
    cases hb : N2.backward false m e with
    | ok e' => rw [hb] at h; rw [N2.backward_cuda hb]; exact N2.backwardN_cuda k e' x h
    | throws => rw [hb] at h; exact (nomatch h)
    | ub => rw [hb] at h; exact (nomatch h)
theorem N2.split_cuda {m : Nat} {e x : MRG 2} {s k : BitVec 32} (h : N2.split false m e s k = .ok x) :
    N2.split true m e s k = .ok x := by
  unfold N2.split at h ⊢
  rw [if_neg (by simp)]
  split at h
  · exact (nomatch h)
  split at h
  · rw [if_pos ‹_›]
    simp only at h ⊢
    split at h
    · exact (nomatch h)
    · exact (nomatch h)
    · rename_i hs
      rw [solve_cuda hs]
      exact N2.backwardN_cuda _ _ _ h
  · rw [if_neg ‹_›]; exact h

/-- Without the check of the arguments, the stream number only says how far the engine is advanced first. -/
theorem N2.split_advance (m : Nat) (e e' : MRG 2) (s k : BitVec 32) (hs : s > 1)
    (h : N2.jump m e (k.setWidth 64 + 1) = N2.jump m e' ((0 : BitVec 32).setWidth 64 + 1)) :
    N2.split true m e s k = N2.split true m e' s 0 := by
  unfold N2.split
  simp only [Bool.true_eq_false, false_and, if_false]
  rw [if_pos hs, if_pos hs, h]

theorem N3.backward_cuda {m : Nat} {e x : MRG 3} (h : N3.backward false m e = .ok x) : N3.backward true m e = .ok x := by
  rw [N3.backward_shifted] at h ⊢
  simp only at h ⊢
  split at h
  · rw [if_pos ‹_›]
    obtain ⟨t0, a0, b0⟩ := bind_ok_iff.1 h
    obtain ⟨t1, a1, b1⟩ := bind_ok_iff.1 b0
    obtain ⟨i, hi, hv⟩ := bind_ok_iff.1 b1
    exact bind_ok_iff.2 ⟨t0, a0, bind_ok_iff.2 ⟨t1, a1, bind_ok_iff.2 ⟨i, inverse_cuda hi, hv⟩⟩⟩
  rw [if_neg ‹_›]
  split at h
  · rw [if_pos ‹_›]
    obtain ⟨t0, a0, b0⟩ := bind_ok_iff.1 h
    obtain ⟨i, hi, hv⟩ := bind_ok_iff.1 b0
    exact bind_ok_iff.2 ⟨t0, a0, bind_ok_iff.2 ⟨i, inverse_cuda hi, hv⟩⟩
  rw [if_neg ‹_›]
  split at h
  · rw [if_pos ‹_›]
    obtain ⟨i, hi, hv⟩ := bind_ok_iff.1 h
    exact bind_ok_iff.2 ⟨i, inverse_cuda hi, hv⟩
  rw [if_neg ‹_›]
  exact h
theorem N3.backwardN_cuda {m : Nat} : ∀ k (e x : MRG 3), N3.backwardN false m k e = .ok x → N3.backwardN true m k e = .ok x
  | 0, _, _, h => h
  | k + 1, e, x, h => by
    unfold N3.backwardN at h ⊢
    cases hb : N3.backward false m e with
    | ok e' => rw [hb] at h; rw [N3.backward_cuda hb]; exact N3.backwardN_cuda k e' x h
    | throws => rw [hb] at h; exact (nomatch h)
    | ub => rw [hb] at h; exact (nomatch h)
theorem N3.split_cuda {m : Nat} {e x : MRG 3} {s k : BitVec 32} (h : N3.split false m e s k = .ok x) :
    N3.split true m e s k = .ok x := by
  unfold N3.split at h ⊢
  rw [if_neg (by simp)]
  split at h
  · exact (nomatch h)
  split at h
  · rw [if_pos ‹_›]
    simp only at h ⊢
    split at h
    · exact (nomatch h)
    · exact (nomatch h)
    · rename_i hs
      rw [solve_cuda hs]
      exact N3.backwardN_cuda _ _ _ h
  · rw [if_neg ‹_›]; exact h

/-- Without the check of the arguments, the stream number only says how far the engine is advanced first. -/
theorem N3.split_advance (m : Nat) (e e' : MRG 3) (s k : BitVec 32) (hs : s > 1)
    (h : N3.jump m e (k.setWidth 64 + 1) = N3.jump m e' ((0 : BitVec 32).setWidth 64 + 1)) :
    N3.split true m e s k = N3.split true m e' s 0 := by
  unfold N3.split
  simp only [Bool.true_eq_false, false_and, if_false]
  rw [if_pos hs, if_pos hs, h]

theorem N4.backward_cuda {m : Nat} {e x : MRG 4} (h : N4.backward false m e = .ok x) : N4.backward true m e = .ok x := by
  rw [N4.backward_shifted] at h ⊢
  simp only at h ⊢
  split at h
  · rw [if_pos ‹_›]
    obtain ⟨t0, a0, b0⟩ := bind_ok_iff.1 h
    obtain ⟨t1, a1, b1⟩ := bind_ok_iff.1 b0
    obtain ⟨t2, a2, b2⟩ := bind_ok_iff.1 b1
    obtain ⟨i, hi, hv⟩ := bind_ok_iff.1 b2
    exact bind_ok_iff.2 ⟨t0, a0, bind_ok_iff.2 ⟨t1, a1, bind_ok_iff.2 ⟨t2, a2, bind_ok_iff.2 ⟨i, inverse_cuda hi, hv⟩⟩⟩⟩
  rw [if_neg ‹_›]
  split at h
  · rw [if_pos ‹_›]
    obtain ⟨t0, a0, b0⟩ := bind_ok_iff.1 h
    obtain ⟨t1, a1, b1⟩ := bind_ok_iff.1 b0
    obtain ⟨i, hi, hv⟩ := bind_ok_iff.1 b1
    exact bind_ok_iff.2 ⟨t0, a0, bind_ok_iff.2 ⟨t1, a1, bind_ok_iff.2 ⟨i, inverse_cuda hi, hv⟩⟩⟩
  rw [if_neg ‹_›]
  split at h
  · rw [if_pos ‹_›]
    obtain ⟨t0, a0, b0⟩ := bind_ok_iff.1 h
    obtain ⟨i, hi, hv⟩ := bind_ok_iff.1 b0
    exact bind_ok_iff.2 ⟨t0, a0, bind_ok_iff.2 ⟨i, inverse_cuda hi, hv⟩⟩
  rw [if_neg ‹_›]
  split at h
  · rw [if_pos ‹_›]
    obtain ⟨i, hi, hv⟩ := bind_ok_iff.1 h
    exact bind_ok_iff.2 ⟨i, inverse_cuda hi, hv⟩
  rw [if_neg ‹_›]
  exact h
theorem N4.backwardN_cuda {m : Nat} : ∀ k (e x : MRG 4), N4.backwardN false m k e = .ok x → N4.backwardN true m k e = .ok x
  | 0, _, _, h => h
  | k + 1, e, x, h => by
    unfold N4.backwardN at h ⊢
    cases hb : N4.backward false m e with
    | ok e' => rw [hb] at h; rw [N4.backward_cuda hb]; exact N4.backwardN_cuda k e' x h
    | throws => rw [hb] at h; exact (nomatch h)
    | ub => rw [hb] at h; exact (nomatch h)
theorem N4.split_cuda {m : Nat} {e x : MRG 4} {s k : BitVec 32} (h : N4.split false m e s k = .ok x) :
    N4.split true m e s k = .ok x := by
  unfold N4.split at h ⊢
  rw [if_neg (by simp)]
  split at h
  · exact (nomatch h)
  split at h
  · rw [if_pos ‹_›]
    simp only at h ⊢
    split at h
    · exact (nomatch h)
    · exact (nomatch h)
    · rename_i hs
      rw [solve_cuda hs]
      exact N4.backwardN_cuda _ _ _ h
  · rw [if_neg ‹_›]; exact h

/-- Without the check of the arguments, the stream number only says how far the engine is advanced first. -/
theorem N4.split_advance (m : Nat) (e e' : MRG 4) (s k : BitVec 32) (hs : s > 1)
    (h : N4.jump m e (k.setWidth 64 + 1) = N4.jump m e' ((0 : BitVec 32).setWidth 64 + 1)) :
    N4.split true m e s k = N4.split true m e' s 0 := by
  unfold N4.split
  simp only [Bool.true_eq_false, false_and, if_false]
  rw [if_pos hs, if_pos hs, h]

theorem N5.backward_cuda {m : Nat} {e x : MRG 5} (h : N5.backward false m e = .ok x) : N5.backward true m e = .ok x := by
  rw [N5.backward_shifted] at h ⊢
  simp only at h ⊢
  split at h
  · rw [if_pos ‹_›]
    obtain ⟨t0, a0, b0⟩ := bind_ok_iff.1 h
    obtain ⟨t1, a1, b1⟩ := bind_ok_iff.1 b0
    obtain ⟨t2, a2, b2⟩ := bind_ok_iff.1 b1
    obtain ⟨t3, a3, b3⟩ := bind_ok_iff.1 b2
    obtain ⟨i, hi, hv⟩ := bind_ok_iff.1 b3
    exact bind_ok_iff.2 ⟨t0, a0, bind_ok_iff.2 ⟨t1, a1, bind_ok_iff.2 ⟨t2, a2, bind_ok_iff.2 ⟨t3, a3, bind_ok_iff.2 ⟨i, inverse_cuda hi, hv⟩⟩⟩⟩⟩
  rw [if_neg ‹_›]
  split at h
  · rw [if_pos ‹_›]
    obtain ⟨t0, a0, b0⟩ := bind_ok_iff.1 h
    obtain ⟨t1, a1, b1⟩ := bind_ok_iff.1 b0
    obtain ⟨t2, a2, b2⟩ := bind_ok_iff.1 b1
    obtain ⟨i, hi, hv⟩ := bind_ok_iff.1 b2
    exact bind_ok_iff.2 ⟨t0, a0, bind_ok_iff.2 ⟨t1, a1, bind_ok_iff.2 ⟨t2, a2, bind_ok_iff.2 ⟨i, inverse_cuda hi, hv⟩⟩⟩⟩
  rw [if_neg ‹_›]
  split at h
  · rw [if_pos ‹_›]
    obtain ⟨t0, a0, b0⟩ := bind_ok_iff.1 h
    obtain ⟨t1, a1, b1⟩ := bind_ok_iff.1 b0
    obtain ⟨i, hi, hv⟩ := bind_ok_iff.1 b1
    exact bind_ok_iff.2 ⟨t0, a0, bind_ok_iff.2 ⟨t1, a1, bind_ok_iff.2 ⟨i, inverse_cuda hi, hv⟩⟩⟩
  rw [if_neg ‹_›]
  split at h
  · rw [if_pos ‹_›]
    obtain ⟨t0, a0, b0⟩ := bind_ok_iff.1 h
    obtain ⟨i, hi, hv⟩ := bind_ok_iff.1 b0
    exact bind_ok_iff.2 ⟨t0, a0, bind_ok_iff.2 ⟨i, inverse_cuda hi, hv⟩⟩
  rw [if_neg ‹_›]
  split at h
  · rw [if_pos ‹_›]
    obtain ⟨i, hi, hv⟩ := bind_ok_iff.1 h
    exact bind_ok_iff.2 ⟨i, inverse_cuda hi, hv⟩
  rw [if_neg ‹_›]
  exact h
theorem N5.backwardN_cuda {m : Nat} : ∀ k (e x : MRG 5), N5.backwardN false m k e = .ok x → N5.backwardN true m k e = .ok x
  | 0, _, _, h => h
  | k + 1, e, x, h => by
    unfold N5.backwardN at h ⊢
    cases hb : N5.backward false m e with
    | ok e' => rw [hb] at h; rw [N5.backward_cuda hb]; exact N5.backwardN_cuda k e' x h
    | throws => rw [hb] at h; exact (nomatch h)
    | ub => rw [hb] at h; exact (nomatch h)
theorem N5.split_cuda {m : Nat} {e x : MRG 5} {s k : BitVec 32} (h : N5.split false m e s k = .ok x) :
    N5.split true m e s k = .ok x := by
  unfold N5.split at h ⊢
  rw [if_neg (by simp)]
  split at h
  · exact (nomatch h)
  split at h
  · rw [if_pos ‹_›]
    simp only at h ⊢
    split at h
    · exact (nomatch h)
    · exact (nomatch h)
    · rename_i hs
      rw [solve_cuda hs]
      exact N5.backwardN_cuda _ _ _ h
  · rw [if_neg ‹_›]; exact h

/-- Without the check of the arguments, the stream number only says how far the engine is advanced first. -/
theorem N5.split_advance (m : Nat) (e e' : MRG 5) (s k : BitVec 32) (hs : s > 1)
    (h : N5.jump m e (k.setWidth 64 + 1) = N5.jump m e' ((0 : BitVec 32).setWidth 64 + 1)) :
    N5.split true m e s k = N5.split true m e' s 0 := by
  unfold N5.split
  simp only [Bool.true_eq_false, false_and, if_false]
  rw [if_pos hs, if_pos hs, h]

/-! ### the engines -/

theorem step_eq (K : Kind) (e : MRG K.order) : step K e = MRG.step K.modulus e := by
  cases K
  · exact N2.step_eq _ e
  · exact N3.step_eq _ e
  · exact N3.step_eq _ e
  · exact N4.step_eq _ e
  · exact N5.step_eq _ e
  · exact N5.step_eq _ e

theorem jump2_eq (K : Kind) (e : MRG K.order) (s : BitVec 32) : jump2 K e s = MRG.jump2 K.modulus e s := by
  cases K
  · exact N2.jump2_eq _ e s
  · exact N3.jump2_eq _ e s
  · exact N3.jump2_eq _ e s
  · exact N4.jump2_eq _ e s
  · exact N5.jump2_eq _ e s
  · exact N5.jump2_eq _ e s

theorem jump_eq (K : Kind) (e : MRG K.order) (s : BitVec 64) : jump K e s = MRG.jump K.modulus e s := by
  cases K
  · exact N2.jump_eq _ e s
  · exact N3.jump_eq _ e s
  · exact N3.jump_eq _ e s
  · exact N4.jump_eq _ e s
  · exact N5.jump_eq _ e s
  · exact N5.jump_eq _ e s

theorem split_eq (K : Kind) (e : MRG K.order) (s k : BitVec 32) : split false K e s k = MRG.split K.modulus e s k := by
  cases K
  · exact N2.split_eq _ e s k
  · exact N3.split_eq _ e s k
  · exact N3.split_eq _ e s k
  · exact N4.split_eq _ e s k
  · exact N5.split_eq _ e s k
  · exact N5.split_eq _ e s k

theorem seed_eq (K : Kind) (e : MRG K.order) (s : BitVec 64) : seed K e s = MRG.seed K.modulus e s := by
  cases K
  · exact N2.seed_eq _ e s
  · exact N3.seed_eq _ e s
  · exact N3.seed_eq _ e s
  · exact N4.seed_eq _ e s
  · exact N5.seed_eq _ e s
  · exact N5.seed_eq _ e s

theorem seedN_eq (K : Kind) (e : MRG K.order) (s : Fin K.order → BitVec 32) : seedN K e s = MRG.seedN K.modulus e s := by
  cases K
  · exact N2.seedN_eq _ e s
  · exact N3.seedN_eq _ e s
  · exact N3.seedN_eq _ e s
  · exact N4.seedN_eq _ e s
  · exact N5.seedN_eq _ e s
  · exact N5.seedN_eq _ e s

theorem seedGen_eq (K : Kind) (e : MRG K.order) (g : Nat → Int) : seedGen K e g = MRG.seedGen K.modulus e g := by
  cases K
  · exact N2.seedGen_eq _ e g
  · exact N3.seedGen_eq _ e g
  · exact N3.seedGen_eq _ e g
  · exact N4.seedGen_eq _ e g
  · exact N5.seedGen_eq _ e g
  · exact N5.seedGen_eq _ e g

theorem backward_eq (K : Kind) (e : MRG K.order)  : backward false K e  = MRG.backward K.modulus e  := by
  cases K
  · exact N2.backward_eq _ e 
  · exact N3.backward_eq _ e 
  · exact N3.backward_eq _ e 
  · exact N4.backward_eq _ e 
  · exact N5.backward_eq _ e 
  · exact N5.backward_eq _ e 

theorem split_cuda {K : Kind} {e x : MRG K.order} {s k : BitVec 32} (h : split false K e s k = .ok x) : split true K e s k = .ok x := by
  cases K
  · exact N2.split_cuda h
  · exact N3.split_cuda h
  · exact N3.split_cuda h
  · exact N4.split_cuda h
  · exact N5.split_cuda h
  · exact N5.split_cuda h

theorem backward_cuda {K : Kind} {e x : MRG K.order} (h : backward false K e = .ok x) : backward true K e = .ok x := by
  cases K
  · exact N2.backward_cuda h
  · exact N3.backward_cuda h
  · exact N3.backward_cuda h
  · exact N4.backward_cuda h
  · exact N5.backward_cuda h
  · exact N5.backward_cuda h

theorem split_advance (K : Kind) (e e' : MRG K.order) (s k : BitVec 32) (hs : s > 1)
    (h : jump K e (k.setWidth 64 + 1) = jump K e' ((0 : BitVec 32).setWidth 64 + 1)) : split true K e s k = split true K e' s 0 := by
  cases K
  · exact N2.split_advance _ e e' s k hs h
  · exact N3.split_advance _ e e' s k hs h
  · exact N3.split_advance _ e e' s k hs h
  · exact N4.split_advance _ e e' s k hs h
  · exact N5.split_advance _ e e' s k hs h
  · exact N5.split_advance _ e e' s k hs h

theorem split_small (K : Kind) (e : MRG K.order) (s k : BitVec 32) (hs : ¬ s > 1) : split true K e s k = .ok e := by
  cases K
  · unfold split; simp only; unfold N2.split; rw [if_neg (by simp), if_neg hs]; rfl
  · unfold split; simp only; unfold N3.split; rw [if_neg (by simp), if_neg hs]; rfl
  · unfold split; simp only; unfold N3.split; rw [if_neg (by simp), if_neg hs]; rfl
  · unfold split; simp only; unfold N4.split; rw [if_neg (by simp), if_neg hs]; rfl
  · unfold split; simp only; unfold N5.split; rw [if_neg (by simp), if_neg hs]; rfl
  · unfold split; simp only; unfold N5.split; rw [if_neg (by simp), if_neg hs]; rfl

theorem call_eq (K : Kind) (e : MRG K.order) : call K e = MRG.call K.modulus e := by
  unfold call MRG.call; rw [step_eq]

theorem callYarn_eq (K : Kind) (e : MRG K.order) : callYarn false K e = MRG.callYarn K.modulus K.gen e := by
  unfold callYarn MRG.callYarn; rw [step_eq]; rfl

theorem powerLoop_eq (m : Nat) : ∀ (fuel : Nat) (p t : Int) (n : Nat), powerLoop m fuel p t n = powLoop m fuel p t n
  | 0, _, _, _ => rfl
  | fuel + 1, p, t, n => by
    unfold powerLoop powLoop
    simp only [gt_iff_lt, Nat.cast_pos]
    rw [show (n : Int).tdiv 2 = ((n / 2 : Nat) : Int) from rfl, powerLoop_eq m fuel,
      show (n : Int).tmod 2 = ((n % 2 : Nat) : Int) from rfl]
    norm_cast

end Trng.MRGWritten
