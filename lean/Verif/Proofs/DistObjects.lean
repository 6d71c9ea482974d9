import Verif.Model.DistObjects
import Verif.Proofs.DiscreteDraw
import Verif.Proofs.TailDists

/-! Lemmas for the parameter classes. -/
namespace Trng.DistObjects
open XR Discrete

theorem eq_iff {x y : XR} : XR.eq x y ↔ x = y ∧ x ≠ nan := by
  cases x <;> cases y <;> simp [XR.eq]

theorem vecEq_eq : ∀ {l m : List XR}, vecEq l m → l = m
  | [], [], _ => rfl
  | x :: l, y :: m, h => by rw [(eq_iff.1 h.1).1, vecEq_eq h.2]
  | [], _ :: _, h => h.elim
  | _ :: _, [], h => h.elim

theorem vecEq_self : ∀ {l : List XR}, (∀ x ∈ l, x ≠ nan) → vecEq l l
  | [], _ => trivial
  | x :: l, h => ⟨eq_iff.2 ⟨rfl, h x (by simp)⟩, vecEq_self fun y hy => h y (by simp [hy])⟩

/-- Every setter leaves the object that the constructor makes of the new values. -/
theorem set_eq (k : Kind) (s : k.cls.Setter) (P : k.cls.State) : k.cls.set s P = k.cls.construct (k.cls.assign s (k.cls.get P)) := by
  cases k <;> first
    | rfl
    | (rcases s with s | s <;> rfl)
    | (rcases s with s | s | s <;> rfl)
    | (rcases s with s | s | s | s <;> rfl)

theorem get_construct (k : Kind) {a : k.cls.Args} {P : k.cls.State} (h : k.cls.construct a = some P) : k.cls.get P = a := by
  cases k <;> first
    | (cases h; rfl)
    | skip
  · obtain ⟨d, _, rfl⟩ := Option.map_eq_some_iff.1 (show (Uniform.int32 (a.2 - a.1)).map _ = some P from h); rfl
  · obtain ⟨d, _, rfl⟩ := Option.map_eq_some_iff.1 (show (Poisson.table a).map _ = some P from h); rfl
  · obtain ⟨d, _, rfl⟩ := Option.map_eq_some_iff.1 (show (ZTPoisson.table a).map _ = some P from h); rfl
  · obtain ⟨d, _, rfl⟩ := Option.map_eq_some_iff.1 (show (NegBinomial.table a.1 a.2).map _ = some P from h); rfl

theorem run_eq (k : Kind) : ∀ (ops : List (Spec.Op k.cls)) (a : k.cls.Args) (P Q : k.cls.State), k.cls.construct a = some P →
    Spec.run k.cls P ops = some Q → k.cls.construct (Spec.assigned k.cls a ops) = some Q
  | [], a, P, Q, hP, h => by cases h; exact hP
  | .set s :: ops, a, P, Q, hP, h => by
    simp only [Spec.run, Option.bind_eq_some_iff] at h
    obtain ⟨P', h1, h2⟩ := h
    rw [set_eq, get_construct k hP] at h1
    exact run_eq k ops _ P' Q h1 h2
  | .param b :: ops, a, P, Q, hP, h => by
    simp only [Spec.run, Option.bind_eq_some_iff] at h
    obtain ⟨P', h1, h2⟩ := h
    exact run_eq k ops _ P' Q h1 h2

/-! The length of the vectors of `discrete_dist`. -/
variable {α : Type} [Field α] [LinearOrder α]

theorem set?_length {β : Type} {l m : List β} {i : Nat} {x : β} (h : set? l i x = some m) : m.length = l.length := by
  unfold set? at h; split_ifs at h; cases h; simp

theorem layerLoop_length {rnd : α → α} {last : Nat} : ∀ (fuel i : Nat) {P Q : List α}, layerLoop rnd last fuel i P = some Q →
    Q.length = P.length
  | 0, _, _, _, h => by simp [layerLoop] at h
  | fuel + 1, i, P, Q, h => by
    rw [layerLoop] at h
    split_ifs at h with h0
    · simp only [Option.bind_eq_some_iff] at h
      obtain ⟨a, _, v, _, P', h2, h3⟩ := h
      rw [layerLoop_length fuel _ h3, set?_length h2]
    · simp only [Option.bind_eq_some_iff] at h
      obtain ⟨a, _, v, _, P', h2, h3⟩ := h
      rw [layerLoop_length fuel _ h3, set?_length h2]
    · cases h; rfl

theorem lowerLayers_length {rnd : α → α} : ∀ (l : Nat) {P Q : List α}, lowerLayers rnd l P = some Q → Q.length = P.length
  | 0, _, _, h => by cases h; rfl
  | l + 1, P, Q, h => by
    simp only [lowerLayers, Option.bind_eq_bind, Option.bind_eq_some_iff] at h
    obtain ⟨P', h1, h2⟩ := h
    rw [lowerLayers_length l h2, layerLoop_length _ _ h1]

theorem construct_length {rnd : α → α} {w : List α} {T : WTree α} (h : WTree.construct rnd w = some T) :
    T.N = w.length ∧ T.layers = IntMath.log2Ceil w.length ∧ T.offset = IntMath.pow2 (IntMath.log2Ceil w.length) - 1 ∧
      T.P.length = T.N + T.offset := by
  simp only [WTree.construct, Option.map_eq_some_iff] at h
  obtain ⟨P, hP, rfl⟩ := h
  refine ⟨rfl, rfl, rfl, ?_⟩
  have : ∀ (l : Nat) {P Q : List α}, updateAllLayers rnd w.length l P = some Q → Q.length = P.length := by
    intro l P Q h
    cases l with
    | zero => cases h; rfl
    | succ l =>
      simp only [updateAllLayers, Option.bind_eq_bind, Option.bind_eq_some_iff] at h
      obtain ⟨P', h1, h2⟩ := h
      rw [lowerLayers_length l h2, layerLoop_length _ _ h1]
  have := this _ hP
  simp only [List.length_append, List.length_replicate] at this
  simp only; omega

theorem raise_length {rnd : α → α} : ∀ (fuel x : Nat) {P Q : List α}, raise rnd fuel x P = some Q → Q.length = P.length
  | 0, _, _, _, h => by simp [raise] at h
  | fuel + 1, x, P, Q, h => by
    simp only [raise, Option.bind_eq_bind, Option.bind_eq_some_iff] at h
    obtain ⟨a, _, b, _, P', h2, h3⟩ := h
    split_ifs at h3
    · rw [raise_length fuel _ h3, set?_length h2]
    · cases h3; exact set?_length h2

theorem setWeight_length {rnd : α → α} {T U : WTree α} {x : Nat} {p : α} (h : T.setWeight rnd x p = some U) :
    U.N = T.N ∧ U.layers = T.layers ∧ U.offset = T.offset ∧ U.P.length = T.P.length := by
  simp only [WTree.setWeight, Option.bind_eq_some_iff, Option.map_eq_some_iff] at h
  obtain ⟨P, h1, P', h2, rfl⟩ := h
  refine ⟨rfl, rfl, rfl, ?_⟩
  split_ifs at h2
  · exact (raise_length _ _ h2).trans (set?_length h1)
  · cases h2; exact set?_length h1

theorem log2Ceil_mono {a b : Nat} (h : a ≤ b) : IntMath.log2Ceil a ≤ IntMath.log2Ceil b := by
  rcases Nat.eq_zero_or_pos a with rfl | ha
  · have : IntMath.log2Ceil 0 = 0 := by decide
    omega
  · rw [IntMath.log2Ceil_eq ha, IntMath.log2Ceil_eq (by omega)]
    exact Nat.clog_mono_right _ h

/-- The number of nodes determines the number of weights. -/
theorem size_inj {a b : Nat} (h : a + (IntMath.pow2 (IntMath.log2Ceil a) - 1) = b + (IntMath.pow2 (IntMath.log2Ceil b) - 1)) : a = b := by
  have key : ∀ {a b : Nat}, a < b → a + (IntMath.pow2 (IntMath.log2Ceil a) - 1) < b + (IntMath.pow2 (IntMath.log2Ceil b) - 1) := by
    intro a b hab
    have h1 : IntMath.pow2 (IntMath.log2Ceil a) ≤ IntMath.pow2 (IntMath.log2Ceil b) := by
      simp only [IntMath.pow2, Nat.shiftLeft_eq, one_mul]
      exact Nat.pow_le_pow_right (by omega) (log2Ceil_mono hab.le)
    omega
  rcases lt_trichotomy a b with h' | h' | h'
  · have := key h'; omega
  · exact h'
  · have := key h'; omega

end Trng.DistObjects

namespace Trng.DistObjects
open XR

/-! Tables. -/

theorem poisson_loop_defined {mu : XR} (h : ¬ ofInt (2 ^ 31 - 1) < 2 * mu) : ∀ (fuel : ℕ) (x : ℤ), (fuel : ℤ) + x = 2 ^ 31 → 1 ≤ fuel →
    ∃ l, Poisson.tableLoop mu fuel x = some l
  | 0, _, _, h => by omega
  | 1, x, hx, _ => by
    obtain rfl : x = 2 ^ 31 - 1 := by push_cast at hx; omega
    exact ⟨[1], by rw [Poisson.tableLoop, if_neg]; rintro (h' | h'); · norm_num at h'
                   exact h h'⟩
  | fuel + 2, x, hx, _ => by
    rw [Poisson.tableLoop]
    split_ifs
    · obtain ⟨l, hl⟩ := poisson_loop_defined h (fuel + 1) (x + 1) (by push_cast at hx ⊢; omega) (by omega)
      exact ⟨_, by rw [hl]; rfl⟩
    · exact ⟨_, rfl⟩

theorem ztp_loop_defined {mu : XR} (h : ¬ ofInt (2 ^ 31 - 1) < 2 * mu) : ∀ (fuel : ℕ) (x : ℤ), (fuel : ℤ) + x = 2 ^ 31 → 1 ≤ fuel →
    ∃ l, ZTPoisson.tableLoop mu fuel x = some l
  | 0, _, _, h => by omega
  | 1, x, hx, _ => by
    obtain rfl : x = 2 ^ 31 - 1 := by push_cast at hx; omega
    exact ⟨[1], by rw [ZTPoisson.tableLoop, if_neg]; rintro (h' | h'); · norm_num at h'
                   exact h h'⟩
  | fuel + 2, x, hx, _ => by
    rw [ZTPoisson.tableLoop]
    split_ifs
    · obtain ⟨l, hl⟩ := ztp_loop_defined h (fuel + 1) (x + 1) (by push_cast at hx ⊢; omega) (by omega)
      exact ⟨_, by rw [hl]; rfl⟩
    · exact ⟨_, rfl⟩

/-- With `p = 0` the loop of negative_binomial_dist never ends. -/
theorem nb_loop_zero {r : ℝ} (hr : 0 < r) : ∀ (fuel : ℕ) (x : ℤ), 0 ≤ x → NegBinomial.tableLoop (fin 0) (fin r) fuel x (fin 0) = none
  | 0, _, _ => rfl
  | fuel + 1, x, hx => by
    have hlim : (1 : XR) - 1 / 4096 = fin (1 - 1 / 4096) := by
      rw [ofNat_fin, ofNat_fin, fin_div (by norm_num), fin_sub]; norm_num
    have hc : NegBinomial.cdf (fin 0) (fin r) x = fin 0 := by
      have hx' : (0 : ℝ) < ((x + 1 : ℤ) : ℝ) := by exact_mod_cast (by omega : 0 < x + 1)
      rw [NegBinomial.cdf, if_neg (by omega), ofInt, BetaI, if_neg (by push Not; exact ⟨hr, hx', le_rfl, zero_le_one⟩)]
      simp
    rw [NegBinomial.tableLoop, hlim, if_pos (by rw [fin_lt]; norm_num), hc, nb_loop_zero hr fuel (x + 1) (by omega)]
    rfl

end Trng.DistObjects

namespace Trng.Correlated
open Trng.DistObjects

/-! The length of the matrix of `correlated_normal_dist`. -/

theorem eliminate_length {d i : Nat} {H : List XR} : ∀ (k : Nat) {G : List XR}, eliminate d i H k = some G → G.length = H.length
  | 0, G, h => by cases h; rfl
  | k + 1, G, h => by
    simp only [eliminate, Option.bind_eq_some_iff] at h
    obtain ⟨H', h1, t, _, x, _, p, _, h2⟩ := h
    rw [set?_length h2, eliminate_length k h1]

theorem clear_length {d i : Nat} {H : List XR} : ∀ (n : Nat) {G : List XR}, clear d i H n = some G → G.length = H.length
  | 0, G, h => by cases h; rfl
  | n + 1, G, h => by
    simp only [clear, Option.bind_eq_some_iff] at h
    obtain ⟨H', h1, h2⟩ := h
    rw [set?_length h2, clear_length n h1]

theorem rows_length {d : Nat} {H : List XR} : ∀ {i : Nat} {G : List XR}, rows d H i = some G → G.length = H.length
  | 0, G, h => by cases h; rfl
  | i + 1, G, h => by
    simp only [rows, row, Option.bind_eq_some_iff] at h
    obtain ⟨H', h1, H2, h2, t, _, x, _, H3, h3, h4⟩ := h
    rw [clear_length _ h4, set?_length h3, eliminate_length _ h2, rows_length h1]

end Trng.Correlated
