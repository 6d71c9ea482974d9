import Verif.Proofs.DistObjects
import Verif.Proofs.CorrelatedLaw

/-! C86, C87: the objects of the distributions are determined by the values of their parameters, and `operator==` tells
whether two objects are the same. -/
namespace Trng.DistObjects
open XR Discrete

/-! ### C86 -/

/-- C86: a setter, called on any object whatsoever, leaves the object that the constructor makes of the old values with the one
value replaced: no member computed from the parameters keeps an old value. -/
theorem C86_setters_partial (k : Kind) (s : k.cls.Setter) (P : k.cls.State) :
    k.cls.set s P = k.cls.construct (k.cls.assign s (k.cls.get P)) := set_eq k s P

/-- The getters return what the constructor was given. -/
theorem C86_getters (k : Kind) {a : k.cls.Args} {P : k.cls.State} (h : k.cls.construct a = some P) : k.cls.get P = a :=
  get_construct k h

/-- C86: after any sequence of calls of setters and of assignments of parameter objects, if it ends, the object is the one
constructed with the values last given, and its getters return these. -/
theorem C86_history_partial (k : Kind) (a : k.cls.Args) {P Q : k.cls.State} (hP : k.cls.construct a = some P)
    (ops : List (Spec.Op k.cls)) (h : Spec.run k.cls P ops = some Q) :
    k.cls.construct (Spec.assigned k.cls a ops) = some Q ∧ k.cls.get Q = Spec.assigned k.cls a ops :=
  ⟨run_eq k ops a P Q hP h, get_construct k (run_eq k ops a P Q hP h)⟩

/-- Two histories that end with the same values leave the same object. -/
theorem C86_order_partial (k : Kind) {a a' : k.cls.Args} {P P' Q Q' : k.cls.State} (hP : k.cls.construct a = some P)
    (hP' : k.cls.construct a' = some P') {ops ops' : List (Spec.Op k.cls)} (h : Spec.run k.cls P ops = some Q)
    (h' : Spec.run k.cls P' ops' = some Q') (hv : Spec.assigned k.cls a ops = Spec.assigned k.cls a' ops') : Q = Q' := by
  have h1 := run_eq k ops a P Q hP h
  rw [hv, run_eq k ops' a' P' Q' hP' h'] at h1
  exact (Option.some_injective _ h1).symm

/-- A default-constructed object is as good as any other as soon as something has been assigned to it. -/
theorem C86_history_default_partial (k : Kind) (o : Spec.Op k.cls) (ops : List (Spec.Op k.cls)) {Q : k.cls.State}
    (h : Spec.run k.cls k.cls.default (o :: ops) = some Q) :
    k.cls.construct (Spec.assigned k.cls (k.cls.get k.cls.default) (o :: ops)) = some Q := by
  cases o with
  | set s =>
    simp only [Spec.run, Option.bind_eq_some_iff] at h
    obtain ⟨P, h1, h2⟩ := h
    rw [set_eq] at h1
    exact run_eq k ops _ P Q h1 h2
  | param a =>
    simp only [Spec.run, Option.bind_eq_some_iff] at h
    obtain ⟨P, h1, h2⟩ := h
    exact run_eq k ops _ P Q h1 h2

/-- But for uniform_int_dist and the three distributions whose table is built by a loop without fixed bound, every history
ends. -/
theorem C86_defined_partial (k : Kind) (h1 : k ≠ .uniformInt) (h2 : k ≠ .poisson) (h3 : k ≠ .zeroTruncatedPoisson)
    (h4 : k ≠ .negativeBinomial) (P : k.cls.State) (ops : List (Spec.Op k.cls)) : ∃ Q, Spec.run k.cls P ops = some Q := by
  have hc : ∀ a, ∃ Q, k.cls.construct a = some Q := by
    intro a
    cases k <;> first
      | exact ⟨_, rfl⟩
      | contradiction
  induction ops generalizing P with
  | nil => exact ⟨P, rfl⟩
  | cons o ops ih =>
    cases o with
    | set s =>
      obtain ⟨Q, hQ⟩ := hc (k.cls.assign s (k.cls.get P))
      obtain ⟨R, hR⟩ := ih Q
      exact ⟨R, by rw [Spec.run, set_eq, hQ]; exact hR⟩
    | param a =>
      obtain ⟨Q, hQ⟩ := hc a
      obtain ⟨R, hR⟩ := ih Q
      exact ⟨R, by rw [Spec.run, hQ]; exact hR⟩

/-- The tables of poisson_dist and zero_truncated_poisson_dist are finished for every mean up to about 2^30, NaN and negative
values included. -/
theorem C86_defined_poisson {mu : XR} (h : ¬ ofInt (2 ^ 31 - 1) < 2 * mu) :
    (∃ P, Kind.poisson.cls.construct mu = some P) ∧ ∃ P, Kind.zeroTruncatedPoisson.cls.construct mu = some P := by
  obtain ⟨l, hl⟩ := poisson_loop_defined h (2 ^ 31) 0 (by norm_num) (by norm_num)
  obtain ⟨m, hm⟩ := ztp_loop_defined h (2 ^ 31 - 1) 1 (by norm_num) (by norm_num)
  constructor
  · exact ⟨⟨mu, l⟩, by
      change (Poisson.table mu).map _ = _
      rw [Poisson.table, hl]; rfl⟩
  · exact ⟨⟨mu, 0 :: m⟩, by
      change (ZTPoisson.table mu).map _ = _
      rw [ZTPoisson.table, hm]; rfl⟩

/-- The default constructor is the constructor with the values that the getters report, but for the distributions with tables. -/
theorem C86_default_partial (k : Kind) (h1 : k ≠ .binomial) (h2 : k ≠ .hypergeometric) (h3 : k ≠ .poisson)
    (h4 : k ≠ .zeroTruncatedPoisson) (h5 : k ≠ .negativeBinomial) : k.cls.construct (k.cls.get k.cls.default) = some k.cls.default := by
  have e : (1 : XR) - 0 = 1 := by rw [ofNat_fin, ofNat_fin, fin_sub]; norm_num
  cases k <;> first
    | rfl
    | contradiction
    | skip
  change some (UniformReal.construct 0 1) = some UniformReal.default
  rw [UniformReal.construct, UniformReal.default, e]

/-- C86 fails for the default constructors of binomial_dist, hypergeometric_dist, poisson_dist, zero_truncated_poisson_dist and
negative_binomial_dist: they leave the table empty, and the first random number is searched for outside of it, whereas an
object constructed with the very values that the getters report is usable. -/
theorem C86_default_wrong (u : XR) :
    BinomialParam.default.draw u = none ∧ HypergeometricParam.default.draw u = none ∧
    Discrete.search u MeanTable.default.P = none ∧ Discrete.search u NegativeBinomial.default.P = none ∧
    (Binomial.construct (1 / 2) 0).draw (fin (1 / 2)) = some 0 := by
  refine ⟨rfl, rfl, rfl, rfl, ?_⟩
  have e : (1 : XR) / 2 = fin (1 / 2) := by rw [ofNat_fin, ofNat_fin, fin_div (by norm_num)]; norm_num
  have e2 : (1 : XR) - fin (1 / 2) = fin (1 / 2) := by rw [ofNat_fin, fin_sub]; norm_num
  have hl : ln (fin (1 / 2)) = fin (Real.log (1 / 2)) := ln_fin (by norm_num)
  have h : (Binomial.construct (1 / 2) 0).P = [fin 1] := by
    have h1 : Binomial.entries (ln (1 / 2)) (ln (1 - 1 / 2)) 0 (0 + 1) 0 0 = [fin 1] := by
      rw [e, e2, hl, Binomial.entries, Binomial.entries, ofInt, ofInt, fin_mul, ofNat_fin, fin_mul, fin_add, fin_add, exp_fin]
      norm_num
    rw [Binomial.construct, h1]
    simp [cumulate, cumulateFrom, normalize, fin_div]
  rw [Binomial.draw, h, Discrete.search]
  simp [fin_lt, show (2 : ℝ)⁻¹ < 1 by norm_num]

/-- C86 fails for uniform_int_dist: between two valid ranges there can be no order of the setters that avoids a signed overflow
of the cached difference. -/
theorem C86_uniform_int_wrong :
    (∃ P, Kind.uniformInt.cls.construct ((-2 ^ 31, -2 ^ 31 + 10) : ℤ × ℤ) = some P ∧
      Spec.run Kind.uniformInt.cls P [.set (Sum.inl (2 ^ 31 - 10) : ℤ ⊕ ℤ), .set (Sum.inr (2 ^ 31 - 1) : ℤ ⊕ ℤ)] = none ∧
      Spec.run Kind.uniformInt.cls P [.set (Sum.inr (2 ^ 31 - 1) : ℤ ⊕ ℤ), .set (Sum.inl (2 ^ 31 - 10) : ℤ ⊕ ℤ)] = none) ∧
    ∃ Q, Kind.uniformInt.cls.construct ((2 ^ 31 - 10, 2 ^ 31 - 1) : ℤ × ℤ) = some Q :=
  ⟨⟨⟨-2 ^ 31, -2 ^ 31 + 10, 10⟩, rfl, rfl, rfl⟩, ⟨⟨2 ^ 31 - 10, 2 ^ 31 - 1, 9⟩, rfl⟩⟩

/-- C86 fails for negative_binomial_dist: on a default-constructed parameter object `r(r_new)` does not return (the table is
built with `p = 0`), although `p(p_new)` followed by `r(r_new)` does, for example for `p = 1/2` and `r = 1`. -/
theorem C86_negative_binomial_wrong :
    (∀ r : ℝ, 0 < r → Kind.negativeBinomial.cls.set (Sum.inr (fin r) : XR ⊕ XR) Kind.negativeBinomial.cls.default = none) ∧
    ∃ Q, Spec.run Kind.negativeBinomial.cls Kind.negativeBinomial.cls.default
      [.set (Sum.inl (fin (1 / 2)) : XR ⊕ XR), .set (Sum.inr (fin 1) : XR ⊕ XR)] = some Q := by
  constructor
  · intro r hr
    change (NegBinomial.table (0 : XR) (fin r)).map _ = none
    rw [NegBinomial.table, show (0 : XR) = fin 0 by simp [ofNat_fin], nb_loop_zero hr _ _ le_rfl]
    rfl
  · have hg : ∀ k : ℕ, nbi (1 / 2) 1 k = (1 / 2) ^ (k + 1) := by
      intro k
      have : Real.Gamma (1 + k) = (k.factorial : ℕ) := by rw [add_comm]; exact Real.Gamma_nat_eq_factorial k
      have hk : ((k.factorial : ℕ) : ℝ) ≠ 0 := Nat.cast_ne_zero.2 (Nat.factorial_ne_zero k)
      rw [nbi, this, Real.Gamma_one, Real.rpow_one]
      field_simp
      norm_num [pow_succ]
      ring
    obtain ⟨c, -, -, ht⟩ := nbi_table (p := 1 / 2) (r := 1) (by norm_num) (by norm_num) (by norm_num) (K := 12) (by norm_num)
      (by simp only [hg]; norm_num [Finset.sum_range_succ])
    have h0 : ∃ l, NegBinomial.table (fin (1 / 2)) (0 : XR) = some l := by
      have hlim : (1 : XR) - 1 / 4096 = fin (1 - 1 / 4096) := by
        rw [ofNat_fin, ofNat_fin, fin_div (by norm_num), fin_sub]; norm_num
      have e : NegBinomial.cdf (fin (1 / 2)) (0 : XR) 0 = nan := by
        rw [NegBinomial.cdf, if_neg (by norm_num), show (0 : XR) = fin 0 by simp [ofNat_fin], ofInt, BetaI, if_pos (Or.inl le_rfl)]
      rw [NegBinomial.table, show (2 : ℕ) ^ 31 = 2147483646 + 1 + 1 by norm_num, NegBinomial.tableLoop, hlim,
        if_pos (by rw [show (0 : XR) = fin 0 by simp [ofNat_fin], fin_lt]; norm_num), e, NegBinomial.tableLoop, hlim, if_neg (by intro h; exact h)]
      exact ⟨_, rfl⟩
    obtain ⟨l, hl⟩ := h0
    refine ⟨(⟨fin (1 / 2), fin 1, (tailTable (nbi (1 / 2) 1) c).map fin⟩ : NegativeBinomial), ?_⟩
    have s1 : Kind.negativeBinomial.cls.set (Sum.inl (fin (1 / 2)) : XR ⊕ XR) Kind.negativeBinomial.cls.default
        = some (⟨fin (1 / 2), 0, l⟩ : NegativeBinomial) := by
      change (NegBinomial.table (fin (1 / 2)) (0 : XR)).map _ = _
      rw [hl]; rfl
    have s2 : Kind.negativeBinomial.cls.set (Sum.inr (fin 1) : XR ⊕ XR) (⟨fin (1 / 2), 0, l⟩ : NegativeBinomial)
        = some (⟨fin (1 / 2), fin 1, (tailTable (nbi (1 / 2) 1) c).map fin⟩ : NegativeBinomial) := by
      change (NegBinomial.table (fin (1 / 2)) (fin 1)).map _ = _
      rw [ht]; rfl
    have b : ∀ {o : Option NegativeBinomial} {P : NegativeBinomial} (f : NegativeBinomial → Option NegativeBinomial), o = some P →
        o.bind f = f P := by rintro _ _ f rfl; rfl
    refine (b (fun P => (Kind.negativeBinomial.cls.set (Sum.inr (fin 1) : XR ⊕ XR) P).bind some) s1).trans ?_
    exact b some s2

/-- A history on truncated_normal_dist, with cached values that follow: shifting mean and left end keeps the cached value. -/
example : ∃ P Q, Kind.truncatedNormal.cls.construct ((0, 1, 0, pinf) : XR × XR × XR × XR) = some P ∧
    Spec.run Kind.truncatedNormal.cls P [.set (Sum.inl 1 : XR ⊕ XR ⊕ XR ⊕ XR), .set (Sum.inr (Sum.inr (Sum.inl 3)) : XR ⊕ XR ⊕ XR ⊕ XR)]
      = some Q ∧ Kind.truncatedNormal.cls.get Q = ((1, 1, 3, pinf) : XR × XR × XR × XR) := ⟨_, _, rfl, rfl, rfl⟩

/-! ### C87 -/

/-- C87: two parameter objects that compare equal are the same object, member by member, and hence give the same random numbers
and function values — but for beta_dist. -/
theorem C87_equal_partial (k : Kind) (hk : ∀ L, k ≠ .beta L) {P Q : k.cls.State} (hP : Spec.Reachable k.cls P)
    (hQ : Spec.Reachable k.cls Q) (h : k.cls.eq P Q) : P = Q := by
  obtain ⟨a, P₀, ops, h1, h2⟩ := hP
  obtain ⟨b, Q₀, ops', h3, h4⟩ := hQ
  have cP := run_eq k ops a P₀ P h1 h2
  have cQ := run_eq k ops' b Q₀ Q h3 h4
  have gP := get_construct k cP
  have gQ := get_construct k cQ
  rw [← gP] at cP
  rw [← gQ] at cQ
  suffices hg : k.cls.get P = k.cls.get Q by
    rw [hg, cQ] at cP
    exact (Option.some_injective _ cP).symm
  cases k <;> first
    | exact absurd rfl (hk _)
    | exact (eq_iff.1 h).1
    | exact h
    | exact Prod.ext (eq_iff.1 h.1).1 (eq_iff.1 h.2).1
    | exact Prod.ext (eq_iff.1 h.1).1 (eq_iff.1 h.2.1).1
    | exact Prod.ext (eq_iff.1 h.1).1 h.2
    | exact Prod.ext h.1 h.2
    | exact Prod.ext h.1 (Prod.ext h.2.1 h.2.2)
    | exact Prod.ext (eq_iff.1 h.1).1 (Prod.ext h.2.1 h.2.2)
    | exact Prod.ext (eq_iff.1 h.1).1 (Prod.ext (eq_iff.1 h.2.1).1 (Prod.ext (eq_iff.1 h.2.2.1).1 (eq_iff.1 h.2.2.2).1))

/-- C87, the other direction, for all classes: objects with the same parameters compare equal, unless a parameter (or the
cached difference of uniform_dist) is NaN. -/
theorem C87_same (k : Kind) {P Q : k.cls.State} (hP : Spec.Reachable k.cls P) (hQ : Spec.Reachable k.cls Q)
    (h : k.cls.get P = k.cls.get Q) (hc : k.cls.comparable (k.cls.get P)) : k.cls.eq P Q := by
  obtain ⟨a, P₀, ops, h1, h2⟩ := hP
  obtain ⟨b, Q₀, ops', h3, h4⟩ := hQ
  have cP := run_eq k ops a P₀ P h1 h2
  have cQ := run_eq k ops' b Q₀ Q h3 h4
  rw [← get_construct k cP] at cP
  rw [← get_construct k cQ, ← h, cP] at cQ
  obtain rfl := Option.some_injective _ cQ
  cases k <;> first
    | exact eq_iff.2 ⟨rfl, hc⟩
    | exact rfl
    | exact ⟨eq_iff.2 ⟨rfl, hc.1⟩, eq_iff.2 ⟨rfl, hc.2⟩⟩
    | exact ⟨rfl, rfl⟩
    | exact ⟨rfl, rfl, rfl⟩
    | exact ⟨eq_iff.2 ⟨rfl, hc⟩, rfl⟩
    | exact ⟨eq_iff.2 ⟨rfl, hc⟩, rfl, rfl⟩
    | exact eq_iff.2 ⟨rfl, hc.1⟩
    | exact ⟨eq_iff.2 ⟨rfl, hc.1⟩, eq_iff.2 ⟨rfl, hc.2.1⟩, eq_iff.2 ⟨rfl, hc.2.2.1⟩, eq_iff.2 ⟨rfl, hc.2.2.2⟩⟩
    | skip
  have hd : P.d = P.b - P.a := (congrArg UniformReal.d (Option.some_injective _ cP)).symm
  exact ⟨eq_iff.2 ⟨rfl, hc.1⟩, eq_iff.2 ⟨rfl, hc.2.1⟩, eq_iff.2 ⟨rfl, by rw [hd]; exact hc.2.2⟩⟩

/-- Hence, for every two objects of a class other than beta_dist without NaN, `==` is equality of the parameters. -/
theorem C87_iff_partial (k : Kind) (hk : ∀ L, k ≠ .beta L) {P Q : k.cls.State} (hP : Spec.Reachable k.cls P)
    (hQ : Spec.Reachable k.cls Q) (hc : k.cls.comparable (k.cls.get P)) : k.cls.eq P Q ↔ k.cls.get P = k.cls.get Q :=
  ⟨fun h => by rw [C87_equal_partial k hk hP hQ h], fun h => C87_same k hP hQ h hc⟩

/-- C87 fails for beta_dist: objects that differ in the second parameter compare equal. -/
theorem C87_beta_wrong (L : Limits) : ∃ P Q, (Kind.beta L).cls.construct ((2, 1) : XR × XR) = some P ∧
    (Kind.beta L).cls.construct ((2, 3) : XR × XR) = some Q ∧ (Kind.beta L).cls.eq P Q ∧
    (Kind.beta L).cls.get P ≠ (Kind.beta L).cls.get Q := by
  refine ⟨_, _, rfl, rfl, (eq_iff.2 ⟨rfl, by simp [ofNat_fin]⟩ : XR.eq 2 2), fun h => ?_⟩
  have := congrArg Prod.snd h
  simp [Kind.cls, Beta.cls, BetaParam.mk', ofNat_fin] at this

/-- Two different and two equal objects, reached in different ways. -/
example : ∃ P Q R, Spec.Reachable Kind.uniform.cls P ∧ Spec.Reachable Kind.uniform.cls Q ∧ Spec.Reachable Kind.uniform.cls R ∧
    Kind.uniform.cls.eq P Q ∧ ¬ Kind.uniform.cls.eq P R := by
  refine ⟨UniformReal.construct 2 3, UniformReal.construct 2 3, UniformReal.construct 2 4, ⟨((2, 3) : XR × XR), _, [], rfl, rfl⟩,
    ⟨((0, 1) : XR × XR), _, [.set (Sum.inl 2 : XR ⊕ XR), .set (Sum.inr 3 : XR ⊕ XR)], rfl, rfl⟩, ⟨((2, 4) : XR × XR), _, [], rfl, rfl⟩, ?_, ?_⟩
  · exact ⟨eq_iff.2 ⟨rfl, by simp [UniformReal.construct, ofNat_fin]⟩, eq_iff.2 ⟨rfl, by simp [UniformReal.construct, ofNat_fin]⟩,
      eq_iff.2 ⟨rfl, by simp [UniformReal.construct, ofNat_fin, fin_sub]⟩⟩
  · rintro ⟨-, h, -⟩
    have := (eq_iff.1 h).1
    simp [UniformReal.construct, ofNat_fin] at this

/-- C87 for discrete_dist: objects made by the constructor and by calls of `param(x, p)` that compare equal are the same, in
particular have the same number of weights. -/
theorem C87_discrete {α : Type} [Field α] [LinearOrder α] (rnd : α → α) {v w : List α} {T₀ U₀ T U : WTree α}
    {ops ops' : List (Nat × α)} (hT : WTree.construct rnd v = some T₀) (hU : WTree.construct rnd w = some U₀)
    (hT' : ops.foldlM (fun T o => T.setWeight rnd o.1 o.2) T₀ = some T) (hU' : ops'.foldlM (fun T o => T.setWeight rnd o.1 o.2) U₀ = some U) :
    discreteEq T U ↔ T = U := by
  have keep : ∀ (ops : List (Nat × α)) (T₀ T : WTree α), ops.foldlM (fun T o => T.setWeight rnd o.1 o.2) T₀ = some T →
      T.N = T₀.N ∧ T.layers = T₀.layers ∧ T.offset = T₀.offset ∧ T.P.length = T₀.P.length := by
    intro ops
    induction ops with
    | nil => intro T₀ T h; cases h; exact ⟨rfl, rfl, rfl, rfl⟩
    | cons o ops ih =>
      intro T₀ T h
      rw [List.foldlM_cons, Option.bind_eq_bind, Option.bind_eq_some_iff] at h
      obtain ⟨T₁, h1, h2⟩ := h
      obtain ⟨a1, a2, a3, a4⟩ := setWeight_length h1
      obtain ⟨b1, b2, b3, b4⟩ := ih T₁ T h2
      exact ⟨b1.trans a1, b2.trans a2, b3.trans a3, b4.trans a4⟩
  constructor
  · intro h
    obtain ⟨c1, c2, c3, c4⟩ := construct_length hT
    obtain ⟨d1, d2, d3, d4⟩ := construct_length hU
    obtain ⟨a1, a2, a3, a4⟩ := keep ops T₀ T hT'
    obtain ⟨b1, b2, b3, b4⟩ := keep ops' U₀ U hU'
    have hl : v.length = w.length := by
      apply size_inj
      have := congrArg List.length h
      rw [a4, b4, c4, d4, c1, d1, c3, d3] at this
      exact this
    obtain ⟨tP, tN, tl, tof⟩ := T
    obtain ⟨uP, uN, ul, uof⟩ := U
    simp only [discreteEq] at h
    simp only at a1 a2 a3 b1 b2 b3
    subst h
    simp only [a1, a2, a3, b1, b2, b3, c1, c2, c3, d1, d2, d3, hl]
  · rintro rfl; rfl

example : ∃ T₀ T : WTree ℚ, WTree.construct id [1, 2] = some T₀ ∧
    [(0, (3 : ℚ))].foldlM (fun T o => T.setWeight id o.1 o.2) T₀ = some T ∧ T ≠ T₀ :=
  ⟨⟨[3, 1, 2], 2, 1, 1⟩, ⟨[5, 3, 2], 2, 1, 1⟩, by decide +kernel, by decide +kernel, by decide +kernel⟩

/-- C87 for fast_discrete_dist. -/
theorem C87_fast_discrete {α : Type} [Field α] [LinearOrder α] (rnd : α → α) {v w : List α} {A B : Alias α}
    (hA : Alias.construct rnd v = some A) (hB : Alias.construct rnd w = some B) : fastDiscreteEq A B ↔ A = B := by
  have h0 : ∀ (w : List α), Alias.construct rnd w = some ⟨w, [], [], 0⟩ := by
    intro w
    simp [Alias.construct, Alias.body, accumulate]
  rw [h0] at hA hB
  cases hA; cases hB
  simp [fastDiscreteEq]

example : ∃ A : Alias ℚ, Alias.construct id [1, 2] = some A := ⟨⟨[1, 2], [], [], 0⟩, by decide +kernel⟩

open Correlated in
/-- C87 for the parameters of correlated_normal_dist: parameter objects made from ranges that compare equal are the same. -/
theorem C87_correlated_param {l m : List XR} {P Q : Param} (hP : Param.ofRange l = some P) (hQ : Param.ofRange m = some Q)
    (h : correlatedParamEq P Q) : P = Q := by
  have len : ∀ {l : List XR} {P : Param}, Param.ofRange l = some P → P.H.length = P.d * P.d := by
    intro l P h
    simp only [Param.ofRange, Option.map_eq_some_iff] at h
    obtain ⟨H, hr, rfl⟩ := h
    rw [rows_length hr, List.length_take, Nat.min_eq_left (Nat.sqrt_le l.length)]
  have e := vecEq_eq h
  have hd : P.d = Q.d := by
    have h1 := len hP
    rw [e, len hQ] at h1
    exact (Nat.mul_self_inj.1 h1).symm
  cases P; cases Q
  simp only at e hd
  rw [e, hd]

open Correlated in
/-- C87 fails for the distribution objects of correlated_normal_dist: `operator==` ignores the variates kept since the last
complete vector, so that two objects that compare equal can give different numbers from the same deviate. -/
theorem C87_correlated_wrong : ∃ P, Param.ofRange (Spec.flat (Matrix.diagonal ![1, 4] : Matrix (Fin 2) (Fin 2) ℝ)) = some P ∧
    ∀ (inv : XR → XR) (u v : XR) (a b : ℝ), inv u = fin a → inv v = fin b → b ≠ 0 →
      ∃ y D, (Dist.ofParam P).draw inv u = some (y, D) ∧ correlatedEq (Dist.ofParam P) D ∧
        ((Dist.ofParam P).draw inv v).map (·.1) = some (fin b) ∧ (D.draw inv v).map (·.1) = some (fin (2 * b)) := by
  have hV : (Matrix.diagonal ![1, 4] : Matrix (Fin 2) (Fin 2) ℝ).PosDef := by
    apply Matrix.PosDef.diagonal
    intro i; fin_cases i <;> norm_num
  obtain ⟨H, hH, e⟩ := ofRange_flat hV
  have p00 : H 0 0 * H 0 0 + H 0 1 * H 0 1 = 1 := by
    have := congrFun (congrFun hH.prod 0) 0
    simpa [Matrix.mul_apply, Fin.sum_univ_two] using this
  have p10 : H 1 0 * H 0 0 + H 1 1 * H 0 1 = 0 := by
    have := congrFun (congrFun hH.prod 1) 0
    simpa [Matrix.mul_apply, Fin.sum_univ_two] using this
  have p11 : H 1 0 * H 1 0 + H 1 1 * H 1 1 = 4 := by
    have := congrFun (congrFun hH.prod 1) 1
    simpa [Matrix.mul_apply, Fin.sum_univ_two] using this
  have z01 : H 0 1 = 0 := hH.lower 0 1 (by decide)
  rw [z01] at p00 p10
  have h00 : H 0 0 = 1 := by nlinarith [hH.diag 0]
  have h10 : H 1 0 = 0 := by rw [h00] at p10; linarith
  have h11 : H 1 1 = 2 := by rw [h10] at p11; nlinarith [hH.diag 1]
  have e00 : extend H 0 0 = 1 := (extend_apply H 0 0).trans h00
  have e10 : extend H 1 0 = 0 := (extend_apply H 1 0).trans h10
  have e11 : extend H 1 1 = 2 := (extend_apply H 1 1).trans h11
  refine ⟨_, e, fun inv u v a b hu hv hb => ?_⟩
  have d1 := draw_flatN inv (extend H) (fun _ => a) (show 0 < 2 by norm_num) (u := u) hu
  have d2 := draw_flatN inv (extend H) (fun _ => b) (show 0 < 2 by norm_num) (u := v) hv
  have d3 := draw_flatN inv (extend H) (fun j => if j = 0 then a else b) (show 1 < 2 by norm_num) (u := v) (by simpa using hv)
  rw [← flat_eq] at d1 d2 d3
  refine ⟨_, _, d1, vecEq_self ?_, ?_, ?_⟩
  · intro x hx
    simp only [Dist.ofParam, Spec.flat, List.mem_ofFn] at hx
    obtain ⟨q, rfl⟩ := hx
    simp
  · simp only [List.range_zero, List.map_nil] at d2
    rw [Dist.ofParam, d2, Option.map_some, Finset.sum_range_one, e00, one_mul]
  · simp only [List.range_one, List.map_cons, List.map_nil, if_true] at d3
    simp only [show (0 + 1 = 2) = False by norm_num, if_false, zero_add, List.range_one, List.map_cons, List.map_nil]
    rw [d3, Option.map_some, Finset.sum_range_succ, Finset.sum_range_one, e10, e11]
    simp

end Trng.DistObjects
