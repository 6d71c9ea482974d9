import Verif.Model.Basic

/- Model of trng/mt19937.hpp, trng/mt19937.cc, trng/mt19937_64.hpp, trng/mt19937_64.cc.  The two
engines have the same code with other constants; the model takes the constants as parameters. -/
namespace Trng.MT

/-- The constants of an engine with words of `w` bits. -/
structure Params (w : Nat) where
  N : Nat
  M : Nat
  /-- most significant bits -/
  UM : BitVec w
  /-- least significant bits -/
  LM : BitVec w
  /-- `mag01[1]` -/
  A : BitVec w
  /-- the last lines of `operator()` -/
  temper : BitVec w → BitVec w
  /-- factor and shift used by `seed` -/
  mult : BitVec w
  shift : Nat

/-- mt19937.hpp:237-240 -/
def temper32 (x : BitVec 32) : BitVec 32 :=
  let x := x ^^^ (x >>> 11)
  let x := x ^^^ ((x <<< 7) &&& 0x9d2c5680#32)
  let x := x ^^^ ((x <<< 15) &&& 0xefc60000#32)
  x ^^^ (x >>> 18)

/-- mt19937_64.hpp:246-249 -/
def temper64 (x : BitVec 64) : BitVec 64 :=
  let x := x ^^^ ((x >>> 29) &&& 0x5555555555555555#64)
  let x := x ^^^ ((x <<< 17) &&& 0x71D67FFFEDA60000#64)
  let x := x ^^^ ((x <<< 37) &&& 0xFFF7EEE000000000#64)
  x ^^^ (x >>> 43)

/-- mt19937.hpp:75-78, 221; mt19937.cc:73. -/
def mt19937 : Params 32 where
  N := 624
  M := 397
  UM := 0x80000000#32
  LM := 0x7FFFFFFF#32
  A := 0x9908b0df#32
  temper := temper32
  mult := 1812433253#32
  shift := 30

/-- mt19937_64.hpp:78-81, 229; mt19937_64.cc:73. -/
def mt19937_64 : Params 64 where
  N := 312
  M := 156
  UM := 0xFFFFFFFF80000000#64
  LM := 0x7FFFFFFF#64
  A := 0xB5026F5AA96619E9#64
  temper := temper64
  mult := 6364136223846793005#64
  shift := 62

variable {w : Nat} {P : Params w}

/-- the array `S.mt` -/
abbrev Words (P : Params w) := Fin P.N → BitVec w

/-- Reading `mt[i]`; `none`: outside of the array. -/
def read (m : Words P) (i : Int) : Option (BitVec w) :=
  if h : 0 ≤ i ∧ i < P.N then some (m ⟨i.toNat, by omega⟩) else none

/-- Writing `mt[i]`. -/
def write (m : Words P) (i : Int) (v : BitVec w) : Option (Words P) :=
  if 0 ≤ i ∧ i < P.N then some fun j => if (j.val : Int) = i then v else m j else none

/-- mt19937.hpp:225-226, 229-230, 232-233 (mt19937_64.hpp:233-234, 237-239, 241-242): one word, in
place `i`, from the words in the places `i`, `j` and `k`. -/
def update (m : Words P) (i j k : Int) : Option (Words P) := do
  let mi ← read m i
  let mj ← read m j
  let x := (mi &&& P.UM) ||| (mj &&& P.LM)
  let mk ← read m k
  write m i (mk ^^^ (x >>> 1) ^^^ (if x &&& 1 = 0 then 0 else P.A))

/-- mt19937.hpp:223-233 (mt19937_64.hpp:231-242): all words. -/
def refill (m : Words P) : Option (Words P) := do
  let N : Int := P.N
  let M : Int := P.M
  let m ← (List.range (P.N - P.M)).foldlM (fun (m : Words P) (i : Nat) => update m i (i + 1) (i + M)) m
  let m ← (List.range' (P.N - P.M) (P.N - 1 - (P.N - P.M))).foldlM
    (fun (m : Words P) (i : Nat) => update m i (i + 1) (i + (M - N))) m
  update m (N - 1) 0 (M - 1)

end MT

/-- mt19937.hpp:117-120 (mt19937_64.hpp:120-123) `status_type`; `mti` is an `int`, default 0. -/
structure MT {w : Nat} (P : MT.Params w) where
  mti : Int := 0
  mt : MT.Words P := fun _ => 0

namespace MT
variable {w : Nat} {P : Params w}

/-- mt19937.hpp:220-242 (mt19937_64.hpp:228-251) `operator()()`; the value is `none` if the
behaviour is undefined (an access outside of the array). -/
def call (e : MT P) : Option (BitVec w) × MT P :=
  let go (e : MT P) : Option (BitVec w) × MT P :=
    match read e.mt e.mti with
    | none => (none, e)
    | some x => (some (P.temper x), { e with mti := e.mti + 1 })
  if e.mti ≥ P.N then
    match refill e.mt with
    | none => (none, e)
    | some m => go ⟨0, m⟩
  else go e

/-- mt19937.hpp:244-247 (mt19937_64.hpp:253-256) `discard`. -/
def discard (e : MT P) (n : BitVec 64) : MT P := Nat.repeat (fun e => (call e).2) n.toNat e

/-- mt19937.cc:69-74 (mt19937_64.cc:69-74) `seed(unsigned long)`; for 32 bit words the arithmetic
and the masks `& 0xffffffffU` are those of `BitVec 32`. -/
def seed (_e : MT P) (s : BitVec 64) : MT P :=
  ⟨P.N, fun i => (List.range i.val).foldl (fun (x : BitVec w) k =>
    P.mult * (x ^^^ (x >>> P.shift)) + BitVec.ofNat w (k + 1)) (s.setWidth w)⟩

/-- mt19937.cc:63 (mt19937_64.cc:63) default constructor; 67: `seed()`. -/
def default : MT P := seed {} 5489

/-- mt19937.hpp:167-170 `seed(gen &)`; `g i` is the `i`-th value drawn. -/
def seedGen32 (e : MT mt19937) (g : Nat → BitVec 64) : MT mt19937 := e.seed (g 0)

/-- mt19937_64.hpp:172-179 `seed(gen &)`. -/
def seedGen64 (e : MT mt19937_64) (g : Nat → BitVec 64) : MT mt19937_64 :=
  e.seed (((0#64 <<< 32) + g 0) <<< 32 + g 1)

/-- mt19937.cc:42-44, 51-56, 77-79 (mt19937_64.cc likewise) `operator==`: compares the words only. -/
def eq (e e' : MT P) : Bool := (List.finRange P.N).all fun i => e.mt i = e'.mt i

end MT
end Trng
