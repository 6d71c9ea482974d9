#!/usr/bin/env python3
"""Writes lean/Verif/Proofs/Primes.lean: Pratt certificates of the primes needed for the period theorems.
The factorizations are checked by the kernel; nothing here is trusted."""
import math, random, sys

def isp(n):
    if n < 2: return False
    for p in (2, 3, 5, 7, 11, 13, 17, 19, 23, 29, 31, 37, 41, 43, 47):
        if n % p == 0: return n == p
    d, s = n - 1, 0
    while d % 2 == 0: d //= 2; s += 1
    for a in (2, 3, 5, 7, 11, 13, 17, 19, 23, 29, 31, 37, 41, 43, 47):
        x = pow(a, d, n)
        if x in (1, n - 1): continue
        for _ in range(s - 1):
            x = x * x % n
            if x == n - 1: break
        else: return False
    return True

def rho(n):
    while True:
        c = random.randrange(1, n); y = random.randrange(n); g = r = q = 1
        while g == 1:
            x = y
            for _ in range(r): y = (y * y + c) % n
            k = 0
            while k < r and g == 1:
                ys = y
                for _ in range(min(256, r - k)):
                    y = (y * y + c) % n; q = q * abs(x - y) % n
                g = math.gcd(q, n); k += 256
            r *= 2
        if g == n:
            g = 1
            while g == 1:
                ys = (ys * ys + c) % n; g = math.gcd(abs(x - ys), n)
        if g != n: return g

def factor(n):
    out = {}
    def go(n):
        for p in range(2, 5000):
            while n % p == 0: out[p] = out.get(p, 0) + 1; n //= p
        if n == 1: return
        if isp(n): out[n] = out.get(n, 0) + 1; return
        f = rho(n); go(f); go(n // f)
    go(n)
    return dict(sorted(out.items()))

done, lines = set(), []
def cert(p):
    if p in done: return
    done.add(p)
    if p < 100000:
        lines.append(f"theorem prime_{p} : Nat.Prime {p} := by norm_num\n"); return
    fs = factor(p - 1)
    for q in fs: cert(q)
    a = 2
    while not all(pow(a, (p - 1) // q, p) != 1 for q in fs): a += 1
    l = ", ".join(f"({q}, {e})" for q, e in fs.items())
    r = " ".join(f"| exact prime_{q}" for q in fs)
    lines.append(f"theorem prime_{p} : Nat.Prime {p} := by\n"
      f"  refine pratt {p} {a} [{l}] ?_ (by decide +kernel)\n"
      f"  simp only [List.forall_mem_cons, List.not_mem_nil, false_imp_iff, implies_true, and_true]\n"
      f"  exact ⟨{', '.join('prime_%d' % q for q in fs)}⟩\n" if len(fs) > 1 else "")
need = [2, 3, 5, 7, 11, 31, 61, 151, 271, 331, 733, 1709, 2147483647, 2147462579, 2147461007, 1073731289, 1073730503,
  529510939, 2903110321, 368140581013, 4611595530352793821, 1286531238451883917612880674872731,
  21266751054232131901454750443841176801,
  # factors of 2^250 - 1 and 2^256 - 1
  251, 601, 1801, 4051, 229668251, 269089806001, 4710883168879506001, 5519485418336288303251, 17, 257, 641, 65537, 274177,
  6700417, 67280421310721, 59649589127497217, 5704689200685129054721] + [int(x) for x in sys.argv[1:]]
for p in need: cert(p)
open('/verif/lean/Verif/Proofs/Primes.lean', 'w').write(
  "import Verif.Proofs.PowMod\nimport Mathlib.Tactic.NormNum.Prime\n\n/-! Primality certificates, written by tools/primes.py. -/\n"
  "namespace Trng.PowMod\n\n" + "\n".join(lines) + "\nend Trng.PowMod\n")
