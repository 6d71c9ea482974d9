#!/usr/bin/env python3
"""Writes lean/Verif/Proofs/LagFibPrim2.lean and LagFibPrim4.lean: the computations that show that the
polynomials of the predefined lagged Fibonacci recurrences are primitive, cut into parts the kernel can
check one by one.  The intermediate values are checked by the kernel; nothing here is trusted."""
lags2 = [([103], 250), ([168], 521), ([273], 607), ([418], 1279), ([1029], 2281), ([576], 3217),
   ([2098], 4423), ([4187], 9689), ([9842], 19937)]
lags4 = [([471, 1586, 6988], 9689), ([168, 205, 242], 521), ([147, 239, 515], 607), ([418, 705, 992], 1279),
   ([305, 610, 915], 2281), ([576, 871, 1461], 3217), ([1419, 1736, 2053], 4423), ([471, 2032, 4064], 9689),
   ([3860, 7083, 11580], 19937)]
fs250 = [3, 11, 31, 251, 601, 1801, 4051, 229668251, 269089806001, 4710883168879506001, 5519485418336288303251]

def sqr(a):
    return int(bin(a)[2:].replace('0', '00').replace('1', '01') or '0', 2) if a else 0

def red(a, L, es):
    while a >> L:
        h = a >> L
        a ^= h << L
        for e in es: a ^= h << e
    return a

for n, lags in ((2, lags2), (4, lags4)):
    o = f'''import Verif.Proofs.LagFibPrim
import Verif.Proofs.Primes

/-! The polynomials of the predefined recurrences with {'two' if n == 2 else 'four'} lags are primitive.
Written by tools/lagprim.py. -/
set_option Elab.async false
set_option maxRecDepth 100000
namespace Trng.LagFib
open Gf2 Mersenne

'''
    for a, L in lags:
        J = (L - 1).bit_length()
        es = [L - x for x in a] + [0] if L == 250 else a + [0]
        nm = f"prim{n}_{L}" + ("_ziff" if a == [471, 1586, 6988] else "")
        if L == 250:
            o += f'''theorem {nm} (op : Op) (h : Valid ⟨op, {a}, {L}⟩) : Primitive ⟨op, {a}, {L}⟩ := by
  refine primitive_of_factors h (J := {J}) (K := 64) (L := {L}) (es := {es}) rfl rfl
    (fs := {fs250}) ?_
    (by decide +kernel) (by decide +kernel) (by decide +kernel) (by decide +kernel)
  simp only [List.forall_mem_cons, List.not_mem_nil, false_imp_iff, implies_true, and_true]
  exact ⟨{', '.join('PowMod.prime_%d' % q for q in fs250)}⟩

'''
            continue
        step = 5000 if L < 4000 else 2000 if L < 5000 else 500
        o += f"theorem {nm}_m : masksOk {J} = true := by decide +kernel\n\n"
        prev, k, v, i = f"Frob.zero {L} {es}", 0, 2, 0
        while k < L:
            d = min(step, L - k)
            u = v
            for _ in range(d): u = red(sqr(u), L, es)
            o += f"theorem {nm}_c{i} : xpow {J} (red {L} {es} 64) 0 {d}\n    {hex(v)} =\n    some {hex(u)} := by decide +kernel\n\n"
            prev = f"Frob.step {nm}_m ({prev}) {nm}_c{i}"
            v = u; k += d; i += 1
        assert v == 2
        o += f'''theorem {nm} (op : Op) (h : Valid ⟨op, {a}, {L}⟩) : Primitive ⟨op, {a}, {L}⟩ :=
  primitive_of_prime h (L := {L}) (es := {es}) rfl rfl prime_{L} (by decide)
    ({prev})

'''
    o += "end Trng.LagFib\n"
    open(f'/verif/lean/Verif/Proofs/LagFibPrim{n}.lean', 'w').write(o)
