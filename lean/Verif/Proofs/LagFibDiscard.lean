import Verif.Proofs.LagFib

/-! `discard` of the lagged Fibonacci engines. -/
namespace Trng.LagFib
open LinAlg IntMath Spec

variable {P : Params} {w : Nat}

/-! ### the transition matrix -/

theorem setNat_eq {T : Type} {n : Nat} (m : Mat T n) (i j : Nat) (v : T) (hi : i < n) (hj : j < n) :
    setNat m i j v = some (m.set ⟨i, hi⟩ ⟨j, hj⟩ v) := by
  rw [setNat, dif_pos (flat_lt ⟨i, hi⟩ ⟨j, hj⟩)]
  rfl

theorem foldlM_setNat {T : Type} {n : Nat} (v : T) (ps : List (Nat × Nat)) (m : Mat T n)
    (hps : ∀ p ∈ ps, p.1 < n ∧ p.2 < n) :
    ∃ m', ps.foldlM (fun m p => setNat m p.1 p.2 v) m = some m' ∧
      ∀ i j : Fin n, m'.get i j = if (i.val, j.val) ∈ ps then v else m.get i j := by
  induction ps generalizing m with
  | nil => exact ⟨m, rfl, fun i j => by simp⟩
  | cons p ps ih =>
    have hp := hps p List.mem_cons_self
    obtain ⟨m', h1, h2⟩ := ih (m.set ⟨p.1, hp.1⟩ ⟨p.2, hp.2⟩ v) (fun q hq => hps q (List.mem_cons_of_mem _ hq))
    refine ⟨m', ?_, fun i j => ?_⟩
    · rw [List.foldlM_cons, setNat_eq _ _ _ _ hp.1 hp.2]
      exact h1
    · rw [h2, Mat.get_set]
      by_cases hq : (i.val, j.val) ∈ ps
      · rw [if_pos hq, if_pos (List.mem_cons_of_mem _ hq)]
      · rw [if_neg hq]
        by_cases hpq : (i.val, j.val) = p
        · rw [if_pos, if_pos]
          · rw [hpq]; exact List.mem_cons_self
          · subst hpq; exact ⟨rfl, rfl⟩
        · rw [if_neg, if_neg]
          · rw [List.mem_cons]; exact fun h => h.elim hpq hq
          · rintro ⟨ha, hb⟩
            exact hpq (Prod.ext (congrArg Fin.val ha) (congrArg Fin.val hb))

theorem transition_eq (T : Type) [Zero T] [One T] (h : Valid P) :
    ∃ M, transition T P = some M ∧ ∀ i j : Fin P.last, M.get i j =
      if i.val = P.last - 1 then (if P.last - j.val ∈ P.all then 1 else 0)
      else if j.val = i.val + 1 then 1 else 0 := by
  have h2 := h.two_le
  have hb := h.bound
  obtain ⟨M1, h1, g1⟩ := foldlM_setNat (1 : T) ((List.range (P.last - 1)).map fun i => (i, i + 1))
    (Mat.zero : Mat T P.last) (by
      intro p hp
      obtain ⟨i, hi, rfl⟩ := List.mem_map.1 hp
      rw [List.mem_range] at hi
      exact ⟨by show i < _; omega, by show i + 1 < _; omega⟩)
  obtain ⟨M2, h3, g2⟩ := foldlM_setNat (1 : T)
    (P.all.reverse.map fun l => (P.last - 1, (P.last + (2 ^ 32 - l)) % 2 ^ 32)) M1 (by
      intro p hp
      obtain ⟨l, hl, rfl⟩ := List.mem_map.1 hp
      have := all_range h (List.mem_reverse.1 hl)
      refine ⟨by show P.last - 1 < _; omega, ?_⟩
      show (P.last + (2 ^ 32 - l)) % 2 ^ 32 < _
      omega)
  refine ⟨M2, ?_, fun i j => ?_⟩
  · rw [List.foldlM_map] at h1 h3
    unfold transition
    rw [h1]
    exact h3
  · have hi := i.isLt
    have hj := j.isLt
    rw [g2, g1, Mat.get_zero]
    have m1 : (i.val, j.val) ∈ P.all.reverse.map (fun l => (P.last - 1, (P.last + (2 ^ 32 - l)) % 2 ^ 32)) ↔
        i.val = P.last - 1 ∧ P.last - j.val ∈ P.all := by
      rw [List.mem_map]
      constructor
      · rintro ⟨l, hl, he⟩
        have hl := List.mem_reverse.1 hl
        have hr := all_range h hl
        have e1 : P.last - 1 = i.val := congrArg Prod.fst he
        have e2 : (P.last + (2 ^ 32 - l)) % 2 ^ 32 = j.val := congrArg Prod.snd he
        refine ⟨e1.symm, ?_⟩
        rw [show P.last - j.val = l by omega]
        exact hl
      · rintro ⟨e1, e2⟩
        refine ⟨P.last - j.val, List.mem_reverse.2 e2, Prod.ext e1.symm ?_⟩
        show (P.last + (2 ^ 32 - (P.last - j.val))) % 2 ^ 32 = j.val
        omega
    have m2 : (i.val, j.val) ∈ (List.range (P.last - 1)).map (fun i => (i, i + 1)) ↔
        i.val < P.last - 1 ∧ j.val = i.val + 1 := by
      rw [List.mem_map]
      constructor
      · rintro ⟨l, hl, he⟩
        have hl := List.mem_range.1 hl
        have e1 : l = i.val := congrArg Prod.fst he
        have e2 : l + 1 = j.val := congrArg Prod.snd he
        omega
      · rintro ⟨e1, e2⟩
        exact ⟨i.val, List.mem_range.2 e1, Prod.ext rfl e2.symm⟩
    simp only [m1, m2]
    by_cases hc : i.val = P.last - 1
    · simp only [hc, true_and, if_true, lt_irrefl, false_and, if_false]
    · simp only [hc, false_and, if_false]
      have : i.val < P.last - 1 := by omega
      simp only [this, true_and]

/-- The transition matrix moves the window over a sequence with the recurrence. -/
theorem window_step {T : Type} [CommRing T] (h : Valid P) (M : Mat T P.last)
    (hM : ∀ i j : Fin P.last, M.get i j =
      if i.val = P.last - 1 then (if P.last - j.val ∈ P.all then 1 else 0)
      else if j.val = i.val + 1 then 1 else 0)
    (y : Nat → T) (hy : ∀ t, y (t + P.last) = (P.all.map fun l => y (t + P.last - l)).sum) (t : Nat) :
    (toMatrix M).mulVec (fun i : Fin P.last => y (t + i.val)) = fun i => y (t + 1 + i.val) := by
  have h2 := h.two_le
  funext i
  have hi := i.isLt
  show ∑ j, M.get i j * y (t + j.val) = _
  by_cases hc : i.val = P.last - 1
  · simp only [hM, if_pos hc]
    rw [show t + 1 + i.val = t + P.last by omega, hy, ← List.sum_toFinset _ (all_nodup h)]
    simp only [ite_mul, one_mul, zero_mul]
    rw [← Finset.sum_filter]
    refine Finset.sum_bij (fun j _ => P.last - j.val) ?_ ?_ ?_ ?_
    · intro j hj
      rw [Finset.mem_filter] at hj
      exact List.mem_toFinset.2 hj.2
    · intro a _ b _ hab
      have := a.isLt
      have := b.isLt
      have hab' : P.last - a.val = P.last - b.val := hab
      exact Fin.ext (by omega)
    · intro l hl
      rw [List.mem_toFinset] at hl
      have := all_range h hl
      refine ⟨⟨P.last - l, by omega⟩, ?_, by show P.last - (P.last - l) = l; omega⟩
      rw [Finset.mem_filter]
      refine ⟨Finset.mem_univ _, ?_⟩
      show P.last - (P.last - l) ∈ P.all
      rw [show P.last - (P.last - l) = l by omega]
      exact hl
    · intro j _
      have := j.isLt
      congr 1
      omega
  · simp only [hM, if_neg hc]
    rw [Finset.sum_eq_single (⟨i.val + 1, by omega⟩ : Fin P.last)]
    · rw [if_pos rfl, one_mul]
      congr 1
      show t + (i.val + 1) = _
      omega
    · intro b _ hb
      rw [if_neg (fun hc => hb (Fin.ext hc)), zero_mul]
    · intro hc; exact absurd (Finset.mem_univ _) hc

theorem window_pow {T : Type} [CommRing T] (h : Valid P) (M : Mat T P.last)
    (hM : ∀ i j : Fin P.last, M.get i j =
      if i.val = P.last - 1 then (if P.last - j.val ∈ P.all then 1 else 0)
      else if j.val = i.val + 1 then 1 else 0)
    (y : Nat → T) (hy : ∀ t, y (t + P.last) = (P.all.map fun l => y (t + P.last - l)).sum) (t n : Nat) :
    (toMatrix M ^ n).mulVec (fun i : Fin P.last => y (t + i.val)) = fun i => y (t + n + i.val) := by
  induction n generalizing t with
  | zero => rw [pow_zero, Matrix.one_mulVec]; rfl
  | succ n ih =>
    rw [pow_succ, ← Matrix.mulVec_mulVec, window_step h M hM y hy t, ih (t + 1)]
    funext i
    congr 1
    omega

/-- The matrix branch moves the window. -/
theorem advance_eq (h : Valid P) (n : BitVec 64) (x : Nat → BitVec w)
    (hx : ∀ t, x (t + P.last) = comb P.op (P.all.map fun l => x (t + P.last - l))) (t : Nat) :
    advance P n (fun i : Fin P.last => x (t + i.val)) = some fun i => x (t + n.toNat + i.val) := by
  unfold advance
  cases hop : P.op with
  | xor =>
    simp only
    obtain ⟨M, h1, h2⟩ := transition_eq GF2 h
    rw [h1]
    show some _ = some _
    congr 1
    funext i
    apply ext_bit
    intro b _
    rw [bit_foldl_xor, bit_zero, zero_add]
    simp only [bit_act]
    rw [← Fin.sum_univ_def]
    have hw := window_pow h M h2 (fun s => bit b (x s)) (by
      intro s
      rw [hx, hop, bit_comb, List.map_map]
      rfl) t n.toNat
    rw [← toMatrix_power] at hw
    exact congrFun hw i
  | plus =>
    simp only
    obtain ⟨M, h1, h2⟩ := transition_eq (BitVec w) h
    rw [h1]
    show some _ = some _
    congr 1
    have hw := window_pow h M h2 x (by
      intro s
      rw [hx, hop, comb_plus_sum]) t n.toNat
    rw [← toMatrix_power] at hw
    rw [toMatrix_mvmul, hw]

/-! ### the history vector -/

theorem foldlM_update {α : Type} {L : Nat} (f : Fin L → Option α) (g : Fin L → α) (l : List (Fin L)) (V : Fin L → α)
    (hfg : ∀ i, f i = some (g i)) :
    l.foldlM (fun V i => do let x ← f i; some (Function.update V i.rev x)) V =
      some fun j => if j.rev ∈ l then g j.rev else V j := by
  induction l generalizing V with
  | nil => simp
  | cons a l ih =>
    rw [List.foldlM_cons, hfg]
    show l.foldlM _ (Function.update V a.rev (g a)) = _
    rw [ih]
    congr 1
    funext j
    by_cases hj : j.rev ∈ l
    · rw [if_pos hj, if_pos (List.mem_cons_of_mem _ hj)]
    · rw [if_neg hj, Function.update_apply]
      by_cases ha : j = a.rev
      · rw [if_pos ha, if_pos (by rw [ha, Fin.rev_rev]; exact List.mem_cons_self), ha, Fin.rev_rev]
      · rw [if_neg ha, if_neg]
        rw [List.mem_cons]
        rintro (hc | hc)
        · exact ha (by rw [← hc, Fin.rev_rev])
        · exact hj hc

theorem history_eq (h : Valid P) (e : LagFib P w) :
    e.history = some fun j => hist h e (P.last - 1 - j.val) := by
  have hls := last_lt_size h
  unfold history
  rw [foldlM_update _ (fun i => hist h e i.val) _ _ (fun i => read_hist h e i.val (by have := i.isLt; omega))]
  congr 1
  funext j
  rw [if_pos (List.mem_finRange _)]
  congr 1
  rw [Fin.val_rev]
  omega

/-! ### writing the window back -/

theorem writeBack (h : Valid P) (e : LagFib P w) (x : BitVec 32)
    (W : Fin P.last → BitVec w) :
    ∃ e' : LagFib P w, (List.finRange P.last).foldlM (fun (e : LagFib P w) i =>
      e.write ((x - BitVec.ofNat 32 i.val) &&& P.mask) (W i.rev)) { e with index := x } = some e' ∧
      e'.index = x ∧ ∀ i (hi : i < P.last), hist h e' i = W (Fin.rev ⟨i, hi⟩) := by
  have hls := last_lt_size h
  have hpos := size_pos h
  have key : ∀ (l : List (Fin P.last)) (e : LagFib P w), l.Nodup → ∃ e' : LagFib P w,
      l.foldlM (fun (e : LagFib P w) i =>
        e.write ((x - BitVec.ofNat 32 i.val) &&& P.mask) (W i.rev)) e = some e' ∧ e'.index = e.index ∧
      (∀ i, i ∈ l → e'.r ⟨(x.toNat + (P.size - i.val)) % P.size, Nat.mod_lt _ hpos⟩ = W i.rev) ∧
      (∀ i, i ∉ l → e'.r ⟨(x.toNat + (P.size - i.val)) % P.size, Nat.mod_lt _ hpos⟩ =
        e.r ⟨(x.toNat + (P.size - i.val)) % P.size, Nat.mod_lt _ hpos⟩) := by
    intro l
    induction l with
    | nil => intro e _; exact ⟨e, rfl, rfl, by simp, fun _ _ => rfl⟩
    | cons a l ih =>
      intro e hl
      rw [List.nodup_cons] at hl
      have ha := a.isLt
      have e1 := toNat_sub_mask h x a.val (by omega)
      have hw : e.write ((x - BitVec.ofNat 32 a.val) &&& P.mask) (W a.rev) =
          some { e with r := Function.update e.r ⟨(x.toNat + (P.size - a.val)) % P.size, Nat.mod_lt _ hpos⟩ (W a.rev) } := by
        rw [write, dif_pos (by rw [e1]; exact Nat.mod_lt _ hpos)]
        congr 3
        exact Fin.ext e1
      obtain ⟨e', h1, h2, h3, h4⟩ := ih { e with r := Function.update e.r ⟨(x.toNat + (P.size - a.val)) % P.size, Nat.mod_lt _ hpos⟩ (W a.rev) } hl.2
      refine ⟨e', ?_, h2, ?_, ?_⟩
      · rw [List.foldlM_cons, hw]
        exact h1
      · intro i hi
        rcases List.mem_cons.1 hi with hi | hi
        · subst hi
          rw [h4 i hl.1]
          simp only [Function.update_self]
        · exact h3 i hi
      · intro i hi
        rw [List.mem_cons, not_or] at hi
        rw [h4 i hi.2]
        simp only
        rw [Function.update_of_ne]
        intro hc
        have hc := Fin.mk.inj_iff.1 hc
        have h1 : x.toNat + (P.size - i.val) ≡ x.toNat + (P.size - a.val) [MOD P.size] := hc
        have h2 : P.size - i.val ≡ P.size - a.val [MOD P.size] := Nat.ModEq.add_left_cancel' _ h1
        have h3 : (P.size - i.val) % P.size = (P.size - a.val) % P.size := h2
        have hi' := i.isLt
        apply hi.1
        apply Fin.ext
        rcases Nat.eq_zero_or_pos i.val with h0 | h0 <;> rcases Nat.eq_zero_or_pos a.val with h0' | h0'
        · omega
        · rw [h0, Nat.sub_zero, Nat.mod_self, Nat.mod_eq_of_lt (by omega)] at h3; omega
        · rw [h0', Nat.sub_zero, Nat.mod_self, Nat.mod_eq_of_lt (by omega)] at h3; omega
        · rw [Nat.mod_eq_of_lt (by omega), Nat.mod_eq_of_lt (by omega)] at h3; omega
  obtain ⟨e', h1, h2, h3, _⟩ := key (List.finRange P.last) { e with index := x } (List.nodup_finRange _)
  refine ⟨e', h1, h2, fun i hi => ?_⟩
  rw [← h3 ⟨i, hi⟩ (List.mem_finRange _)]
  simp only [hist]
  congr 1
  apply Fin.ext
  show (e'.index.toNat + (P.size - i)) % P.size = _
  rw [h2]

/-! ### discard -/

/-- Number of steps `discard(n)` makes. -/
theorem discard_steps (h : Valid P) (e : LagFib P w) (n : BitVec 64) :
    discard e n = some ((stepT h)^[if n > BitVec.ofNat 64 (log2Ceil n.toNat) * BitVec.ofNat 64 P.last *
      BitVec.ofNat 64 P.last * BitVec.ofNat 64 P.last then (n - BitVec.ofNat 64 P.last).toNat + P.last
      else n.toNat] e) := by
  have h2 := h.two_le
  have hb := h.bound
  have hls := last_lt_size h
  have hsl := size_lt h
  have hpos := size_pos h
  unfold discard
  simp only
  split
  · rename_i hgt
    clear hgt
    rw [history_eq h]
    set part := n - BitVec.ofNat 64 P.last with hpart
    have hrec : ∀ t, seqOf h e (t + (P.size - P.last) + P.last) =
        comb P.op (P.all.map fun l => seqOf h e (t + (P.size - P.last) + P.last - l)) := by
      intro t
      rw [show t + (P.size - P.last) + P.last = P.size + t by omega]
      exact seqOf_rec h e t
    have hV : (fun j : Fin P.last => hist h e (P.last - 1 - j.val)) =
        fun j => (fun s => seqOf h e (s + (P.size - P.last))) (0 + j.val) := by
      funext j
      have hj := j.isLt
      have := hist_iter h e 0 (P.last - 1 - j.val) (by omega)
      rw [show hist h e (P.last - 1 - j.val) = hist h ((stepT h)^[0] e) (P.last - 1 - j.val) from rfl, this]
      simp only
      congr 1
      omega
    rw [hV]
    have hadv := advance_eq h part (fun s => seqOf h e (s + (P.size - P.last))) (by
      intro t
      rw [show t + P.last + (P.size - P.last) = t + (P.size - P.last) + P.last by omega, hrec]
      congr 1
      apply List.map_congr_left
      intro l hl
      have := all_range h hl
      congr 1
      omega) 0
    show (advance P part _ >>= _) = _
    rw [hadv]
    set x : BitVec 32 := (e.index.setWidth 64 + part).setWidth 32 &&& P.mask with hxdef
    have hxn : x.toNat = (e.index.toNat + part.toNat) % P.size := by
      rw [hxdef, toNat_and_mask h, BitVec.toNat_setWidth, BitVec.toNat_add, BitVec.toNat_setWidth,
        Nat.mod_mod_of_dvd _ (size_dvd h), Nat.mod_mod_of_dvd _ ((size_dvd h).trans (pow_dvd_pow 2 (by omega))),
        Nat.mod_eq_of_lt (show e.index.toNat < 2 ^ 64 by have := e.index.isLt; omega)]
    obtain ⟨e', h1, hidx, hhist⟩ := writeBack h e x
      (fun i => (fun s => seqOf h e (s + (P.size - P.last))) (0 + part.toNat + i.val))
    beta_reduce at h1
    simp only [Option.bind_eq_bind, Option.bind_some, h1]
    show stepN (n - part).toNat e' = _
    have hn : (n - part).toNat = P.last := by
      rw [hpart, sub_sub_cancel, BitVec.toNat_ofNat, Nat.mod_eq_of_lt (show P.last < 2 ^ 64 by omega)]
    rw [hn, stepN_eq h]
    congr 1
    -- the sequence continued from `e'`
    have hseq : ∀ i, seqOf h e' (P.size - P.last + i) = seqOf h e (part.toNat + (P.size - P.last + i)) := by
      refine rec_unique (y := fun i => seqOf h e (part.toNat + i)) h (P.size - P.last) ?_ ?_ ?_
      · intro n
        rw [show P.size - P.last + P.last + n = P.size + n by omega]
        exact seqOf_rec h e' n
      · intro n
        rw [show part.toNat + (P.size - P.last + P.last + n) = P.size + (part.toNat + n) by omega, seqOf_rec]
        congr 1
        apply List.map_congr_left
        intro l hl
        have := all_range h hl
        congr 1
        omega
      · intro i hi
        have e1 := hist_iter h e' 0 (P.last - 1 - i) (by omega)
        rw [show P.size - P.last + i = 0 + P.size - 1 - (P.last - 1 - i) by omega, ← e1]
        show hist h e' (P.last - 1 - i) = _
        rw [hhist _ (by omega)]
        simp only [Fin.val_rev]
        congr 1
        omega
    apply ext_hist h
    · apply BitVec.eq_of_toNat_eq
      rw [iter_index h _ _ (by omega), iter_index h _ _ (by omega), hidx, hxn, Nat.mod_add_mod]
      congr 1
      omega
    · intro i hi
      rw [hist_iter h _ _ i hi, hist_iter h _ _ i hi]
      have := hseq (P.last + P.size - 1 - i - (P.size - P.last))
      rw [show P.size - P.last + (P.last + P.size - 1 - i - (P.size - P.last)) = P.last + P.size - 1 - i by omega] at this
      rw [this]
      congr 1
      omega
  · rw [stepN_eq h]

end Trng.LagFib
