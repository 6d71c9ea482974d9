import Verif.Proofs.Programs
import Verif.Props.Discrete
import Verif.Props.MRG
import Verif.Props.Uniform
/-
C107: the sequential example programs count, estimate and collect what their comments say, for every engine.
-/
namespace Trng
open Spec FP Trng.Uniform Discrete Programs

/-- discrete_dist.cc and discrete_dist_c_style.cc, for weights that are integer multiples of a power of two with a sum of
at most `2^p` of them (the weights of the programs are: `example` below): no access outside the vectors, `count[i]` is
the number of samples equal to `i`, and the counts add up to the number of samples. -/
theorem C107_discrete {σ : Type} {F : Fmt} (hF : Nearest F) (hp : 2 ≤ F.p) {G : Gen σ} (hG : G.Sound) (m : List Nat)
    (e : ℤ) (h0 : 0 < m.sum) (hs : m.sum ≤ 2 ^ F.p) (samples : Nat) (hn : samples < 2 ^ 31) (r : σ) :
    ∃ dist, WTree.construct F.rnd (m.map fun n : Nat => (n : ℚ) * 2 ^ e) = some dist ∧ ∃ count : Nat → Nat,
      discreteCount F G (m.map fun n : Nat => (n : ℚ) * 2 ^ e) samples r =
        some ((List.range m.length).map fun i => (count i : ℤ)) ∧
      (∀ i, count i = (List.range samples).countP fun k => decide (nth (dist.sample F G) r k = some (i : ℤ))) ∧
      ((List.range m.length).map count).sum = samples := by
  obtain ⟨T, hT, h⟩ := C72_discrete_float_partial hF hp hG m e h0 hs
  have hd : ∀ s, ∃ k : Nat, k < m.length ∧ (T.sample F G s).1 = some (k : ℤ) := fun s => by
    obtain ⟨k, h1, h2, -⟩ := h s
    exact ⟨k, h1, h2⟩
  refine ⟨T, hT, hits (T.sample F G) r samples, ?_, fun _ => rfl, sum_hits _ hd _ _⟩
  rw [discreteCount, hT]
  simp only [Option.bind_eq_bind, Option.bind_some, List.length_map]
  have := countLoop_eq (T.sample F G) hd samples r (fun _ => 0) (fun i => ⟨le_rfl, by push_cast; omega⟩)
  simp only [zero_add] at this
  rw [← this]
  congr 1
  simp

/-- The weights of the programs: 1, 3.25, 5, 6.5, 7, 2. -/
example (r : LCG64) : ∃ count : Nat → Nat,
    discreteCount float64 genLCG64 [1, 3.25, 5, 6.5, 7, 2] 10000 r =
      some ((List.range 6).map fun i => (count i : ℤ)) ∧ ((List.range 6).map count).sum = 10000 := by
  obtain ⟨T, -, c, h1, -, h2⟩ := C107_discrete float64_nearest (by decide) genLCG64_sound [4, 13, 20, 26, 28, 8] (-2)
    (by decide) (by decide) 10000 (by norm_num) r
  refine ⟨c, ?_, h2⟩
  rw [← show ([4, 13, 20, 26, 28, 8] : List Nat).map (fun n : Nat => (n : ℚ) * 2 ^ (-2 : ℤ)) = [1, 3.25, 5, 6.5, 7, 2] by
    norm_num [zpow_neg]]
  exact h1

/-- bernoulli_dist.cc: the program counts the heads and the tails. -/
theorem C107_bernoulli {σ : Type} (F : Fmt) (G : Gen σ) (p : ℚ) (samples : Nat) (hn : samples < 2 ^ 31) (r : σ) :
    ∃ heads : Nat, heads ≤ samples ∧
      bernoulliCount F G p samples r = some [(heads : ℤ), ((samples - heads : ℕ) : ℤ)] ∧
      heads = (List.range samples).countP fun k => nth ((⟨p, true, false⟩ : BernoulliParam Bool).sample F G) r k := by
  set draw : σ → Option ℤ × σ := fun r =>
    (some (if ((⟨p, 0, 1⟩ : BernoulliParam Nat).sample F G r).1 = 0 then 0 else 1),
      ((⟨p, 0, 1⟩ : BernoulliParam Nat).sample F G r).2) with hdraw
  have hd : ∀ s, ∃ k : Nat, k < 2 ∧ (draw s).1 = some (k : ℤ) := fun s => by
    by_cases hx : ((⟨p, 0, 1⟩ : BernoulliParam Nat).sample F G s).1 = 0
    · exact ⟨0, by norm_num, by simp [hdraw, hx]⟩
    · exact ⟨1, by norm_num, by simp [hdraw, hx]⟩
  have h1 := countLoop_eq draw hd samples r (fun _ => 0) (fun i => ⟨le_rfl, by push_cast; omega⟩)
  have h2 := sum_hits draw hd samples r
  simp only [List.range_succ, List.range_zero, List.nil_append, List.map_cons, List.map_nil,
    zero_add, List.singleton_append, List.sum_cons, List.sum_nil, add_zero] at h1 h2
  refine ⟨hits draw r samples 0, by omega, ?_, ?_⟩
  · rw [show samples - hits draw r samples 0 = hits draw r samples 1 by omega]
    exact h1
  · have hafter : ∀ k s, afterCalls draw k s = afterCalls ((⟨p, true, false⟩ : BernoulliParam Bool).sample F G) k s := by
      intro k
      induction k with
      | zero => intro s; rfl
      | succ k ih => intro s; exact ih _
    unfold hits
    apply List.countP_congr
    intro k _
    unfold nth
    rw [hafter]
    simp only [hdraw, BernoulliParam.sample]
    split_ifs <;> simp_all

example (r : LCG64) : ∃ heads : Nat, heads ≤ 100000 ∧
    bernoulliCount float64 genLCG64 (float64.rnd 0.51) 100000 r = some [(heads : ℤ), ((100000 - heads : ℕ) : ℤ)] := by
  obtain ⟨h, a, b, -⟩ := C107_bernoulli float64 genLCG64 (float64.rnd 0.51) 100000 (by norm_num) r
  exact ⟨h, a, b⟩

/-- correlated_normal_dist.cc: without rounding `covariance` is the mean product of the deviations from the means. -/
theorem C107_covariance (v1 v2 : List ℚ) (h : v1.length = v2.length) :
    covariance id v1 v2 = some (((v1.zip v2).map fun x =>
      (x.1 - v1.sum / v1.length) * (x.2 - v2.sum / v2.length)).sum / v1.length) := by
  rw [covariance, if_neg (by omega)]
  simp only [mean_id]
  rw [cov_id, zero_add, h, List.take_length]
  rfl

/-- With any rounding: the printed matrix is symmetric. -/
theorem C107_covariance_symmetric (rnd : ℚ → ℚ) (v1 v2 : List ℚ) (h : v1.length = v2.length) :
    covariance rnd v1 v2 = covariance rnd v2 v1 := by
  rw [covariance, covariance, if_neg (by omega), if_neg (by omega)]
  simp only [cov_swap rnd _ _ _ v1 v2]
  rw [h, List.take_length, ← h, List.take_length]

/-- In floating-point arithmetic: the variances on the diagonal are not negative. -/
theorem C107_variance_nonneg {F : Fmt} (hF : Nearest F) (v : List ℚ) :
    ∃ c, covariance F.rnd v v = some c ∧ 0 ≤ c := by
  refine ⟨_, by rw [covariance, if_neg (lt_irrefl _)], ?_⟩
  rw [List.take_length]
  exact cov_nonneg hF (hF.nonneg (by positivity)) _ v 0 le_rfl

/-- A second vector that is too short is read past its end. -/
theorem C107_covariance_undefined (rnd : ℚ → ℚ) (v1 v2 : List ℚ) : covariance rnd v1 v2 = none ↔ v2.length < v1.length := by
  unfold covariance
  split_ifs <;> simp_all

example : covariance id [1, 2, 6] [0, 1, -4] = some (-13 / 3) := by
  rw [C107_covariance [1, 2, 6] [0, 1, -4] rfl]; norm_num

/-- stl_container.cc: the three vectors hold consecutive samples of the distribution, all in `[a, b)`; the second call of
`std::generate` goes on where the first one stopped. -/
theorem C107_stl_container {σ : Type} {D : Fmt} (hD : Nearest D) (hp : 2 ≤ D.p) {G : Gen σ} (hG : G.Sound) {a b : ℤ}
    (ha : -2 ^ 31 ≤ a) (hb : b ≤ 2 ^ 31 - 1) (hab : a < b) (hd : b - a ≤ 2 ^ 31 - 1) (n m : Nat) (R : σ) :
    ∃ U, IntParam.mk' a b = some U ∧ ∃ x : Nat → ℤ, (∀ k, nth (U.sample D G) R k = some (x k) ∧ a ≤ x k ∧ x k < b) ∧
      stlContainer D G a b n m R =
        some ((List.range' 0 n).map x, (List.range' n m).map x, (List.range' (n + m) m).map x) := by
  have hU : IntParam.mk' a b = some ⟨a, b, b - a⟩ := by
    rw [IntParam.mk', int32, if_pos ⟨by omega, by omega⟩]; rfl
  have h : ∀ s, ∃ k, (IntParam.sample ⟨a, b, b - a⟩ D G s).1 = some k ∧ a ≤ k ∧ k < b := fun s => by
    obtain ⟨P, h1, h2⟩ := C49_uniform_int_range hD hp hG s ha hb hab hd
    rw [hU] at h1
    cases h1
    exact h2
  refine ⟨_, hU, fun k => (nth (IntParam.sample ⟨a, b, b - a⟩ D G) R k).getD 0, fun k => ?_, ?_⟩
  · obtain ⟨v, h1, h2, h3⟩ := h (afterCalls (IntParam.sample ⟨a, b, b - a⟩ D G) k R)
    have e : nth (IntParam.sample ⟨a, b, b - a⟩ D G) R k = some v := h1
    simp only [e, Option.getD_some]
    exact ⟨trivial, h2, h3⟩
  · have hg := generate_eq (IntParam.sample ⟨a, b, b - a⟩ D G) (fun s => (h s).imp fun _ h => h.1)
    have hn : ∀ i k, nth (IntParam.sample ⟨a, b, b - a⟩ D G) (afterCalls (IntParam.sample ⟨a, b, b - a⟩ D G) i R) k =
        nth (IntParam.sample ⟨a, b, b - a⟩ D G) R (i + k) := fun i k => by
      unfold nth
      rw [Nat.add_comm i k, afterCalls_add]
    have hr : ∀ i n : Nat, List.range' i n = (List.range n).map (i + ·) := fun i n => by
      rw [List.range'_eq_map_range]
    rw [stlContainer, hU]
    simp only [Option.bind_eq_bind, Option.bind_some, hg, ← afterCalls_add, hn, hr, List.map_map, Nat.zero_add]
    rw [Nat.add_comm m n]
    rfl

/-- The vectors of the program. -/
example : ∃ x : Nat → ℤ, (∀ k, 0 ≤ x k ∧ x k < 100) ∧
    stlContainer float64 genLCG64 0 100 10 12 (LCG64.ofParam LCG64.Default) =
      some ((List.range' 0 10).map x, (List.range' 10 12).map x, (List.range' 22 12).map x) := by
  obtain ⟨U, -, x, h1, h2⟩ := C107_stl_container float64_nearest (by decide) genLCG64_sound (a := 0) (b := 100)
    (by norm_num) (by norm_num) (by norm_num) (by norm_num) 10 12 (LCG64.ofParam LCG64.Default)
  exact ⟨x, fun k => (h1 k).2, h2⟩

/-- time.cc adds up the values of an engine in a variable of the engine's result type; for the mrg engines this is `int`.
The sum is right if it fits, otherwise the behaviour is undefined. -/
theorem C107_time_plain_partial (K : Kind) (e : MRG K.order) (he : InRange K.modulus e) (n : Nat) :
    timePlain (MRG.call K.modulus) n e 0 =
      if ((List.range n).map (nth (MRG.call K.modulus) e)).sum < 2 ^ 31 then
        some ((List.range n).map (nth (MRG.call K.modulus) e)).sum else none := by
  have := timePlain_eq (MRG.call K.modulus) n e 0 (fun k => (C26_mrg_range K e he k).1) le_rfl (by norm_num)
  simpa only [zero_add] using this

example : timePlain (MRG.call Kind.k5.modulus) 2 (MRG.init .k5) 0 ≠ none := by decide +kernel

/-- The `2^24` turns of the program overflow for every mrg and yarn engine in its default state. -/
theorem C107_time_plain_wrong (K : Kind) :
    timePlain (MRG.call K.modulus) (2 ^ 24) (MRG.init K) 0 = none ∧
    timePlain (fun e => ((MRG.callYarn K.modulus K.gen e).1.getD 0, (MRG.callYarn K.modulus K.gen e).2)) (2 ^ 24)
      (MRG.init K) 0 = none := by
  have h1 : timePlain (MRG.call K.modulus) 14 (MRG.init K) 0 = none := by cases K <;> decide +kernel
  have h2 : timePlain (fun e => ((MRG.callYarn K.modulus K.gen e).1.getD 0, (MRG.callYarn K.modulus K.gen e).2)) 14
      (MRG.init K) 0 = none := by cases K <;> decide +kernel
  exact ⟨timePlain_add _ (2 ^ 24 - 14) 14 _ _ h1, timePlain_add _ (2 ^ 24 - 14) 14 _ _ h2⟩

end Trng
