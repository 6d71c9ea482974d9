import Verif.Proofs.Examples
import Verif.Props.MRG
/-
C83: the parallel programs in /repo/examples give the result of the sequential program, for every number of processes.
`yarn K F` is any of the six yarn engines with `uniform01_dist<F>`; the programs use yarn2 (yarn5s for CUDA) in its
default state, the theorems hold for every valid state.
-/
namespace Trng
open Spec FP Examples

private theorem lawful (K : Kind) {F : Fmt} (hp : 1 ≤ F.p) : ∃ g : Nat → ℚ,
    Lawful (yarn K F) (MRG.callYarn K.modulus K.gen) (fun v => g (v.getD 0).toNat) (InRange K.modulus) := by
  obtain ⟨g, hg⟩ := yarn_u K hp
  refine ⟨g, ⟨hg, fun s hs => ?_, fun s n hs => ?_⟩⟩
  · exact (C26_mrg_range K s hs 1).2.2.1
  · have h := C27_mrg_discard K s hs n
    exact h.2.2.trans h.2.1

/-- What the sequential program computes: the number of the points `(u_{2i}, u_{2i+1})`, `i < samples`, in the circle,
where `u_k` is the deviate made from value number `k` of the engine. -/
theorem C83_pi_sequential (K : Kind) {F : Fmt} (hp : 1 ≤ F.p) (e : MRG K.order) (samples : Nat) :
    piSeq F (yarn K F) e samples = ((List.range samples).countP fun i =>
      let u := fun k => ((yarn K F).u (afterCalls (MRG.callYarn K.modulus K.gen) k e)).1
      decide (F.rnd (F.rnd (u (2 * i) * u (2 * i)) + F.rnd (u (2 * i + 1) * u (2 * i + 1))) ≤ 1) : ℕ) := by
  obtain ⟨g, hl⟩ := lawful K hp
  rw [piSeq_eq F hl]
  simp only [hl.u]
  rfl

/-- pi_block_openmp.cc, pi_block_mpi.cc, pi_block_cuda.cu: for every number of processes and every order of the
reduction the program counts as many points as the sequential one. -/
theorem C83_pi_block (K : Kind) {F : Fmt} (hp : 1 ≤ F.p) (e : MRG K.order) (he : InRange K.modulus e)
    (samples size : Nat) (hs0 : 0 < size) (hs : size < 2 ^ 31) (hb : size * samples < 2 ^ 63) (hS : samples < 2 ^ 62)
    (order : List ℤ) (ho : order.Perm ((List.range size).map Nat.cast)) :
    reduce (piBlockRank F (yarn K F) e samples size) order = some (piSeq F (yarn K F) e samples) := by
  obtain ⟨g, hl⟩ := lawful K hp
  exact piBlock_eq F hl he hs0 hs hb hS ho

/-- The default engine with the programs' million points and up to 2^31-1 processes. -/
example (size : Nat) (h0 : 0 < size) (hs : size < 2 ^ 31) :
    reduce (piBlockRank float64 (yarn .k2 float64) (MRG.init .k2) 1000000 size) ((List.range size).map Nat.cast) =
      some (piSeq float64 (yarn .k2 float64) (MRG.init .k2) 1000000) :=
  C83_pi_block .k2 (by decide) _ (MRG.init_inRange _) 1000000 size h0 hs (by omega) (by norm_num) _ (List.Perm.refl _)

/-- pi_block_tbb.cc: however TBB divides the range among threads and bodies. -/
theorem C83_pi_tbb (K : Kind) {F : Fmt} (hp : 1 ≤ F.p) (e : MRG K.order) (he : InRange K.modulus e)
    (samples : Nat) (hS : samples < 2 ^ 62) (t : Task) (ht : t.Covers 0 samples) :
    piTask F (yarn K F) e t 0 = piSeq F (yarn K F) e samples := by
  obtain ⟨g, hl⟩ := lawful K hp
  rw [piTask_eq F hl he t 0 samples 0 ht hS, piSeq_eq F hl, zero_add, Nat.sub_zero, List.range_eq_range']

example : (Task.fork (.seq (.range 0 10) (.range 10 17)) (.fork (.range 17 17) (.range 17 1000000))).Covers 0 1000000 :=
  ⟨17, ⟨10, ⟨rfl, rfl, by omega⟩, rfl, rfl, by omega⟩, 17, ⟨rfl, rfl, by omega⟩, rfl, rfl, by omega⟩

private theorem split_twice (K : Kind) (e : MRG K.order) (he : Splittable K e) {size : Nat} (hs : size < 2 ^ 31)
    (r j : Nat) (hr : r < size) (hj : j < 2) : ∃ e1 e2,
    MRG.split K.modulus e (BitVec.ofNat 32 2) (BitVec.ofNat 32 j) = .ok e1 ∧
    MRG.split K.modulus e1 (BitVec.ofNat 32 size) (BitVec.ofNat 32 r) = .ok e2 ∧
    Leapfrog (MRG.callYarn K.modulus K.gen) e e2 (2 * size) (2 * r + j) := by
  have t : ∀ n : Nat, n < 2 ^ 32 → (BitVec.ofNat 32 n).toNat = n := fun n hn => by
    rw [BitVec.toNat_ofNat]; exact Nat.mod_eq_of_lt hn
  obtain ⟨e1, e2, h1, h2, -, h3⟩ := C07_mrg_split_split K e he (BitVec.ofNat 32 2) (BitVec.ofNat 32 j)
    (BitVec.ofNat 32 size) (BitVec.ofNat 32 r)
    (by rw [BitVec.lt_def, t _ (by omega), t _ (by omega)]; exact hj)
    (by rw [BitVec.lt_def, t _ (by omega), t _ (by omega)]; exact hr)
  rw [t _ (by omega), t _ (by omega), t _ (by omega), t _ (by omega)] at h3
  refine ⟨e1, e2, h1, h2, ?_⟩
  rw [show 2 * r + j = r * 2 + j by ring]
  exact h3

/-- pi_leap_openmp.cc, pi_leap_mpi.cc: the same with leapfrog.  `Splittable`: in range, and for the five-term engines one
of the built-in parameter sets. -/
theorem C83_pi_leap (K : Kind) {F : Fmt} (hp : 1 ≤ F.p) (e : MRG K.order) (he : Splittable K e)
    (samples size : Nat) (hs0 : 0 < size) (hs : size < 2 ^ 31) (hS : samples < 2 ^ 62)
    (order : List ℤ) (ho : order.Perm ((List.range size).map Nat.cast)) :
    reduce (piLeapRank F (yarn K F) e samples size) order = some (piSeq F (yarn K F) e samples) := by
  obtain ⟨g, hl⟩ := lawful K hp
  exact piLeap_eq F hl hs0 hs hS (fun r j hr hj => split_twice K e he hs r j hr hj) ho

example (size : Nat) (h0 : 0 < size) (hs : size < 2 ^ 31) :
    reduce (piLeapRank float64 (yarn .k2 float64) (MRG.init .k2) 1000000 size) ((List.range size).map Nat.cast) =
      some (piSeq float64 (yarn .k2 float64) (MRG.init .k2) 1000000) :=
  C83_pi_leap .k2 (by decide) _ (MRG.init_splittable _) 1000000 size h0 hs (by norm_num) _ (List.Perm.refl _)

/-- What pi_leap_cuda.cu computes: thread number `r` counts the points number `k * size + r` of the sequential program,
for as many `k` as its block of the points is long.  So the program looks at `samples` points, but they are not the
first ones: the odd points go to the threads at the ends of the blocks instead of the first threads. -/
theorem C83_pi_leap_cuda_actual (K : Kind) {F : Fmt} (hp : 1 ≤ F.p) (e : MRG K.order) (he : Splittable K e)
    (samples size : Nat) (hs : size < 2 ^ 31) (hb : size * samples < 2 ^ 63)
    (order : List ℤ) (ho : order.Perm ((List.range size).map Nat.cast)) :
    reduce (piLeapCudaRank F (yarn K F) e samples size) order = some ((∑ r ∈ Finset.range size,
      (List.range ((r + 1) * samples / size - r * samples / size)).countP fun k =>
        let u := fun k => ((yarn K F).u (afterCalls (MRG.callYarn K.modulus K.gen) k e)).1
        let i := k * size + r
        decide (F.rnd (F.rnd (u (2 * i) * u (2 * i)) + F.rnd (u (2 * i + 1) * u (2 * i + 1))) ≤ 1) : ℕ) : ℤ) := by
  obtain ⟨g, hl⟩ := lawful K hp
  rw [piLeapCuda_eq F hl hb (fun r j hr hj => split_twice K e he hs r j hr hj) ho]
  simp only [hl.u]
  rfl

/-- pi_leap_cuda.cu gives the result of the sequential program if the number of threads divides the number of points.
Wanted for every number of threads, like `C83_pi_leap`; that is false (`C83_pi_leap_cuda_wrong`), and the program's
128 threads do not divide its 1000000 points. -/
theorem C83_pi_leap_cuda_partial (K : Kind) {F : Fmt} (hp : 1 ≤ F.p) (e : MRG K.order) (he : Splittable K e)
    (samples size : Nat) (hs0 : 0 < size) (hs : size < 2 ^ 31) (hb : size * samples < 2 ^ 63) (hd : size ∣ samples)
    (order : List ℤ) (ho : order.Perm ((List.range size).map Nat.cast)) :
    reduce (piLeapCudaRank F (yarn K F) e samples size) order = some (piSeq F (yarn K F) e samples) := by
  obtain ⟨g, hl⟩ := lawful K hp
  rw [piLeapCuda_eq F hl hb (fun r j hr hj => split_twice K e he hs r j hr hj) ho, piSeq_eq F hl]
  obtain ⟨q, rfl⟩ := hd
  have hq : ∀ r, (r + 1) * (size * q) / size - r * (size * q) / size = q := fun r => by
    rw [show (r + 1) * (size * q) = size * (r * q + q) by ring, show r * (size * q) = size * (r * q) by ring,
      Nat.mul_div_cancel_left _ hs0, Nat.mul_div_cancel_left _ hs0]
    omega
  simp only [hq]
  rw [sum_dealt, Nat.mul_comm]

example : reduce (piLeapCudaRank float32 (yarn .k2 float32) (MRG.init .k2) 1000000 64)
      ((List.range 64).map Nat.cast) = some (piSeq float32 (yarn .k2 float32) (MRG.init .k2) 1000000) :=
  C83_pi_leap_cuda_partial .k2 (by decide) _ (MRG.init_splittable _) 1000000 64 (by norm_num) (by norm_num) (by norm_num)
    ⟨15625, by norm_num⟩ _ (List.Perm.refl _)

/-- Six threads and one point: the sequential program finds it in the circle, pi_leap_cuda.cu looks at another point and
finds it outside. -/
theorem C83_pi_leap_cuda_wrong :
    reduce (piLeapCudaRank float32 (yarn .k2 float32) (MRG.init .k2) 1 6) ((List.range 6).map Nat.cast) = some 0 ∧
    piSeq float32 (yarn .k2 float32) (MRG.init .k2) 1 = 1 := by
  constructor
  · obtain ⟨g, hl⟩ := lawful .k2 (F := float32) (by decide)
    have h5 : piSeq float32 (yarn .k2 float32) (MRG.init .k2) ((5 : ℕ) : ℤ) = 5 := by decide +kernel
    have h6 : piSeq float32 (yarn .k2 float32) (MRG.init .k2) ((6 : ℕ) : ℤ) = 5 := by decide +kernel
    rw [piSeq_eq _ hl] at h5 h6
    have h := piLeapCuda_eq float32 hl (e := MRG.init .k2) (S := 1) (size := 6) (by norm_num)
      (fun r j hr hj => split_twice .k2 _ (MRG.init_splittable _) (by norm_num) r j hr hj) (List.Perm.refl _)
    refine h.trans ?_
    have hin : inside float32 (MRG.callYarn Kind.k2.modulus Kind.k2.gen) (fun v => g (v.getD 0).toNat) (MRG.init .k2) 5 =
        false := by
      rw [show 6 = 5 + 1 from rfl, List.range_succ, List.countP_append, Nat.cast_add, h5] at h6
      by_contra hc
      simp [Bool.not_eq_false _ ▸ hc] at h6
    simp [Finset.sum_range_succ, hin]
  · decide +kernel

/-- With the numbers of the program (128 threads, 1000000 points) point number 999936 of the sequential program is never
looked at. -/
example (r k : Nat) (hr : r < 128)
    (hk : k < (r + 1) * 1000000 / 128 - r * 1000000 / 128) : k * 128 + r ≠ 999936 := by
  intro h
  have h0 : r = 0 := by omega
  subst h0
  norm_num at hk
  omega

/-- site_percolation_embarrassing.cc: with one process the program produces realisations `0, ..., N-1`; with `size`
processes, rank `r` produces exactly the same lattices for its share of the realisations, those with `i % size = r`.
Wanted for all numbers of processes below 2^31; the bound on `size * (Nx * Ny)` is needed
(`C83_percolation_wrong`). -/
theorem C83_percolation_partial (K : Kind) {F : Fmt} (hp : 1 ≤ F.p) (P : ℚ) (e : MRG K.order)
    (he : InRange K.modulus e) (Nx Ny N : Nat) (hxy : Nx * Ny < 2 ^ 31) (hN : N + 1 < 2 ^ 31) :
    ∃ all, percolationRank (yarn K F) P e Nx Ny N (1 : Nat) (0 : Nat) = some all ∧
      all.map (fun p => p.1) = (List.range N).map Nat.cast ∧
      ∀ size r : Nat, r < size → size * (Nx * Ny) < 2 ^ 31 → N + size < 2 ^ 31 →
        percolationRank (yarn K F) P e Nx Ny N size r = some (all.filter fun p => p.1 % (size : ℤ) = (r : ℤ)) := by
  obtain ⟨g, hl⟩ := lawful K hp
  refine ⟨_, percolationRank_eq hl P he (by omega) (by omega) hN, ?_, fun size r hr hb hN => ?_⟩
  · rw [List.map_map, List.filter_eq_self.2]
    · rfl
    · intro k _; simp [Nat.mod_one]
  · rw [percolationRank_eq hl P he hr hb hN, List.filter_map]
    congr 2
    rw [List.filter_filter]
    apply List.filter_congr
    intro k _
    simp only [Function.comp, Nat.mod_one, decide_true, Bool.and_true, decide_eq_decide]
    exact ⟨fun h => by exact_mod_cast h, fun h => by exact_mod_cast h⟩

/-- The programs' lattice is admitted with up to 42949 processes ... -/
example : 42949 * (250 * 200) < 2 ^ 31 ∧ (1000 : Nat) + 42949 < 2 ^ 31 := by norm_num

/-- ... while with 42951 processes the first sweep of every rank ends with an overflow of `int`. -/
theorem C83_percolation_wrong {σ : Type} (A : Engine σ) (P : ℚ) (R : σ) (rank : ℤ) (h : rank < 1000) :
    percolationRank A P R 250 200 1000 42951 rank = none := by
  unfold percolationRank
  rw [show int (250 * 200) = some 50000 by decide]
  show (int (rank * 50000)).bind _ = none
  cases int (rank * 50000) with
  | none => rfl
  | some skip =>
    rw [Option.bind_some, show (1000 : ℤ).toNat + 1 = 1000 + 1 from rfl, percolationLoop, if_pos h]
    have h1 : int (250 * 200) = some 50000 := by decide
    have h2 : int ((42951 - 1) * 50000) = none := by decide
    simp only [h1, h2, Option.bind_eq_bind, Option.bind_some, Option.bind_none]

/-- site_percolation_fine-grained.cc: with a grid of `dx * dy` processes, the process with coordinates `(cx, cy)` holds in
every realisation exactly its section of the lattice that a single process would fill. -/
theorem C83_percolation_fine (K : Kind) {F : Fmt} (hp : 1 ≤ F.p) (P : ℚ) (e : MRG K.order)
    (he : InRange K.modulus e) (Nx Ny N : Nat) (hNx : Nx < 2 ^ 31) (hNy : Ny < 2 ^ 31) (hxy : Nx * (Ny + 1) < 2 ^ 31) :
    ∃ all, fineRank (yarn K F) P e Nx Ny N (1 : Nat) (1 : Nat) (0 : Nat) (0 : Nat) = some ((0, 0), all) ∧
      (all.length = N ∧ ∀ s ∈ all, s.length = Ny ∧ ∀ row ∈ s, row.length = Nx) ∧
      ∀ dx dy cx cy : Nat, cx < dx → cy < dy → dx * Nx < 2 ^ 31 → dy * Ny < 2 ^ 31 → dx < 2 ^ 31 → dy < 2 ^ 31 →
        ∃ l, fineRank (yarn K F) P e Nx Ny N dx dy cx cy =
            some ((((cx * Nx / dx : ℕ) : ℤ), ((cy * Ny / dy : ℕ) : ℤ)), l) ∧
          l = all.map fun s => ((s.drop (cy * Ny / dy)).take ((cy + 1) * Ny / dy - cy * Ny / dy)).map fun row =>
            (row.drop (cx * Nx / dx)).take ((cx + 1) * Nx / dx - cx * Nx / dx) := by
  obtain ⟨g, hl⟩ := lawful K hp
  have h1 := fineRank_eq hl P he (N := N) (dx := 1) (dy := 1) (cx := 0) (cy := 0) (by omega) (by omega)
    (by omega : 1 * Nx < 2 ^ 31) (by omega : 1 * Ny < 2 ^ 31) (by omega) (by omega) hNx hxy
  simp only [Nat.zero_mul, Nat.mul_zero, Nat.zero_add, Nat.one_mul, Nat.div_one, Nat.sub_zero] at h1
  refine ⟨_, h1, ⟨by simp, ?_⟩, fun dx dy cx cy hcx hcy hdx hdy hdx' hdy' => ⟨_, ?_, rfl⟩⟩
  · intro s hs
    simp only [List.mem_map] at hs
    obtain ⟨i, -, rfl⟩ := hs
    refine ⟨by simp [rowsAt], fun row hrow => ?_⟩
    simp only [rowsAt, List.mem_map] at hrow
    obtain ⟨x, -, rfl⟩ := hrow
    simp
  · rw [fineRank_eq hl P he hcx hcy hdx hdy hdx' hdy' hNx hxy, List.map_map]
    refine congrArg some (Prod.ext rfl ?_)
    apply List.map_congr_left
    intro i _
    have b2 : (cx + 1) * Nx / dx ≤ Nx := div_le_of_lt hcx
    have b4 : (cy + 1) * Ny / dy ≤ Ny := div_le_of_lt hcy
    have m1 : cx * Nx / dx ≤ (cx + 1) * Nx / dx := Nat.div_le_div_right (Nat.mul_le_mul_right _ (by omega))
    have m2 : cy * Ny / dy ≤ (cy + 1) * Ny / dy := Nat.div_le_div_right (Nat.mul_le_mul_right _ (by omega))
    exact rowsAt_part P e (by omega) (by omega)

/-- The sections of the processes are disjoint and cover the lattice, in each direction. -/
theorem C83_sections (N d x : Nat) (hd : 0 < d) (hx : x < N) :
    ∃! c, c < d ∧ c * N / d ≤ x ∧ x < (c + 1) * N / d := by
  have mono : ∀ {a b : Nat}, a ≤ b → a * N / d ≤ b * N / d := fun h =>
    Nat.div_le_div_right (Nat.mul_le_mul_right _ h)
  have hex : ∃ c, x < (c + 1) * N / d :=
    ⟨d - 1, by rw [show d - 1 + 1 = d by omega, Nat.mul_div_cancel_left N hd]; exact hx⟩
  refine ⟨Nat.find hex, ⟨?_, ?_, Nat.find_spec hex⟩, ?_⟩
  · have : Nat.find hex ≤ d - 1 := Nat.find_min' hex (by
      rw [show d - 1 + 1 = d by omega, Nat.mul_div_cancel_left N hd]; exact hx)
    omega
  · rcases Nat.eq_zero_or_pos (Nat.find hex) with h | h
    · rw [h]; simp
    · have := Nat.find_min hex (m := Nat.find hex - 1) (by omega)
      rw [show Nat.find hex - 1 + 1 = Nat.find hex by omega] at this
      omega
  · rintro c ⟨h1, h2, h3⟩
    apply le_antisymm
    · by_contra hc
      have hf := Nat.find_spec hex
      have := mono (show Nat.find hex + 1 ≤ c by omega)
      omega
    · exact Nat.find_min' hex h3

/-- The programs' lattice on a grid of up to 8589934 times 10737418 processes. -/
example : 8589934 * 250 < 2 ^ 31 ∧ 10737418 * 200 < 2 ^ 31 ∧ 250 * (200 + 1) < 2 ^ 31 := by norm_num

end Trng
