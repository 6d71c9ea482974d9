"""Writes lean/Verif/Proofs/LagFibSeeded{A,B,C}.lean: for every predefined lagged Fibonacci engine with ^ its first numbers after default
construction, and for every bit a selection of these numbers whose exclusive or is that bit."""
import os
p = 2**31 - 1
lags2 = [([103], 250), ([168], 521), ([273], 607), ([418], 1279), ([1029], 2281), ([576], 3217), ([2098], 4423), ([4187], 9689), ([9842], 19937)]
lags4 = [([471, 1586, 6988], 9689), ([168, 205, 242], 521), ([147, 239, 515], 607), ([418, 705, 992], 1279), ([305, 610, 915], 2281),
         ([576, 871, 1461], 3217), ([1419, 1736, 2053], 4423), ([471, 2032, 4064], 9689), ([3860, 7083, 11580], 19937)]


def word(w, i):
    x, r = pow(16807, i * w, p), 0
    for _ in range(w):
        x = x * 16807 % p
        r = 2 * r + (x - 1 > (p - 1) // 2)
    return r


def cert(q, w):
    lags, last = q
    outs, basis, k = [], {}, 0
    while len(basis) < w:
        o = 0
        for l in lags + [last]:
            o ^= word(w, last - l + k)
        outs.append(o)
        v, m = o, 1 << k
        while v:
            h = v.bit_length() - 1
            if h not in basis:
                basis[h] = (v, m)
                break
            v ^= basis[h][0]
            m ^= basis[h][1]
        k += 1
    masks = []
    for b in range(w):
        v, m = 1 << b, 0
        while v:
            h = v.bit_length() - 1
            v ^= basis[h][0]
            m ^= basis[h][1]
        masks.append(m)
    return outs, masks


every = lags2 + lags4
here = os.path.join(os.path.dirname(__file__), "../lean/Verif/Proofs")
for part, name in enumerate("ABC"):
    out = ["import Verif.Proofs.LagFibSeeded\n\n/-! Generated by tools/lagfib_seeded.py: certificates that the bits of the first numbers of default "
           "constructed lagged\nFibonacci engines with `^` are independent. -/\nnamespace Trng.LagFibSeeded\nopen LagFib\n"]
    for q in every[6 * part:6 * part + 6]:
        for w in (32, 64):
            o, m = cert(q, w)
            bs = [pow(16807, (q[1] - l) * w, p) for l in q[0] + [q[1]]]
            out.append(f"theorem ok_{'_'.join(map(str, q[0] + [q[1]]))}_{w} : ok ⟨.xor, {q[0]}, {q[1]}⟩ {w} {bs}\n    {o}\n    {m} = true := by decide +kernel\n")
    out.append("end Trng.LagFibSeeded\n")
    open(f"{here}/LagFibSeeded{name}.lean", "w").write("\n".join(out))
