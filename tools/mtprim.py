#!/usr/bin/env python3
"""Writes lean/Verif/Proofs/MTPrim32.lean and MTPrim64.lean: X^(2^19937) modulo the characteristic
polynomial of the Mersenne twisters, in steps the kernel checks one by one."""
import sys
L = 19937
TAB = [sum(((b >> i) & 1) << (2 * i) for i in range(8)).to_bytes(2, 'little') for b in range(256)]

def sq(a):
    return int.from_bytes(b''.join(TAB[x] for x in a.to_bytes(L // 8 + 1, 'little')), 'little')

def charpoly(n, m, w, r, a):
    """x_{j+1} in terms of x_0: p is the polynomial, shifted right when r is not reached"""
    # T^s y_j with y_j = T x_j (j < r) or x_j (j >= r);  y_{j+1} = u' x_j + a_j y_0, u' = T^n + T^m
    # work with q_j: x_j = q_j(T) x_0 ; y_0 = T x_0
    q = 1
    for j in range(w - 1):
        y = (q << n) ^ (q << m) ^ ((a >> j & 1) << 1)   # y_{j+1}
        if j + 1 < r:
            assert y & 1 == 0
            q = y >> 1
        else:
            q = y
    # u' x_{w-1} = a_{w-1} y_0
    y = (q << n) ^ (q << m) ^ ((a >> (w - 1) & 1) << 1)
    assert y & 1 == 0
    return y >> 1

def reducer(F):
    es = [i for i in range(L) if F >> i & 1]
    def red(a):
        while a >> L:
            h = a >> L
            a ^= h << L
            for e in es:
                a ^= h << e
        return a
    return red

def quotient(F):
    """floor(X^(2L) / F)"""
    q = 0
    a = 1 << (2 * L)
    while a.bit_length() > L:
        s = a.bit_length() - 1 - L
        q |= 1 << s
        a ^= F << s
    return q

def main(tag, n, m, w, r, a, step):
    F = charpoly(n, m, w, r, a)
    assert F.bit_length() == L + 1, F.bit_length()
    print(tag, 'terms', bin(F).count('1'), [i for i in range(L, 0, -1) if F >> i & 1][:6])
    U = quotient(F)
    red = reducer(F)
    vals = [2]
    sizes = []
    x = 2
    k = 0
    while k < L:
        s = min(step, L - k)
        for _ in range(s):
            x = red(sq(x))
        k += s
        vals.append(x)
        sizes.append(s)
    assert x == 2
    out = []
    out.append('import Verif.Proofs.MTPoly\n')
    out.append('/-! The characteristic polynomial of %s is primitive.  Written by tools/mtprim.py. -/' % tag)
    out.append('set_option Elab.async false\nset_option maxRecDepth 100000\nnamespace Trng.MT\nopen Gf2\n')
    out.append('/-- approximation of `X^(2 * 19937) / F` -/\ndef quot%d : Nat := 0x%x\n' % (w, U))
    for i, s in enumerate(sizes):
        out.append('theorem frob%d_c%d : frobCheck 15 19937 quot%d fpoly%d\n    0x%x\n    0x%x %d = true := by decide +kernel\n'
                   % (w, i, w, w, vals[i], vals[i + 1], s))
    t = 'Frob.zero fpoly%d' % w
    out.append('theorem frob%d : Frob fpoly%d 19937 2 := by' % (w, w))
    out.append('  have h := Frob.zero fpoly%d' % w)
    for i in range(len(sizes)):
        out.append('  replace h := h.step masks15 frob%d_c%d' % (w, i))
    out.append('  exact h\n')
    out.append('end Trng.MT')
    open('/verif/lean/Verif/Proofs/MTPrim%d.lean' % w, 'w').write('\n'.join(out) + '\n')

if __name__ == '__main__':
    main('mt19937', 624, 397, 32, 31, 0x9908b0df, 400)
    main('mt19937_64', 312, 156, 64, 31, 0xB5026F5AA96619E9, 400)
