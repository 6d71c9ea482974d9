#!/usr/bin/env python3
"""Writes lean/Verif/Proofs/AcklamCert.lean: chains of intervals for the error of the rational approximations in inv_Phi_approx.
The kernel checks them; nothing here is trusted."""
import math
from fractions import Fraction as Fr
def coeffs(s, scale):
    l = [Fr(x) * scale for x in s.split()][::-1]
    assert all(x.denominator == 1 for x in l)
    return [int(x) for x in l]
a = coeffs("-3.969683028665376e+01 2.209460984245205e+02 -2.759285104469687e+02 1.383577518672690e+02 -3.066479806614716e+01 2.506628277459239e+00", 10**15)
b = coeffs("-5.447609879822406e+01 1.615858368580409e+02 -1.556989798598866e+02 6.680131188771972e+01 -1.328068155288572e+01 1", 10**15)
c = coeffs("7.784894002430293e-03 3.223964580411365e-01 2.400758277161838e+00 2.549732539343734e+00 -4.374664141464968e+00 -2.938163982698783e+00", 10**18)
d = coeffs("7.784695709041462e-03 3.224671290700398e-01 2.445134137142996e+00 3.754408661907416e+00 1", 10**18)
def der(p): return [i*k for i, k in enumerate(p)][1:]
def mul(p, q):
    r = [0]*(len(p)+len(q)-1)
    for i, x in enumerate(p):
        for j, y in enumerate(q): r[i+j] += x*y
    return r
def add(p, q, s=1):
    n = max(len(p), len(q)); p = p+[0]*(n-len(p)); q = q+[0]*(n-len(q))
    return [x+s*y for x, y in zip(p, q)]
def sub(p, q): return add(p, q, -1)
def sc(k, p): return [k*x for x in p]
V = add(mul(a, b), mul([0, 2], sub(mul(der(a), b), mul(a, der(b)))))
b2 = mul(b, b); b3 = mul(b2, b)
numC = sub(sub(sc(2, mul(der(V), b3)), sc(4, mul(mul(der(b), b2), V))), mul(a, mul(V, V)))
denC = sc(2, mul(V, b3))
W = sub(mul(der(c), d), mul(c, der(d)))
d2 = mul(d, d); d3 = mul(d2, d)
numT = sub(sub(mul(der(W), d3), sc(2, mul(mul(der(d), d2), W))), mul(c, mul(W, W)))
numT = add(mul([0, 1], numT), mul([-1, 0, 1], mul(W, d3)))
denT = mul([0, 1], mul(W, d3))
def hom(p, A, B, m):
    def lin(l, a, b):
        r = []; prev = 0
        for x in l: r.append(a*x+b*prev); prev = x
        return r+[b*prev]
    acc = [p[-1]]; pw = [1]
    for k in reversed(p[:-1]):
        pw = lin(pw, m, m)
        acc = [x+k*y for x, y in zip(lin(acc, A, B), pw)]
    return acc
def pad(p, q):
    n = max(len(p), len(q)); return p+[0]*(n-len(p)), q+[0]*(n-len(q))
numC, denC = pad(numC, denC); numT, denT = pad(numT, denT)
def rng(num, den, A, B, m):
    n = hom(num, A, B, m); d = hom(den, A, B, m)
    if min(d) <= 0: return None
    q = [Fr(x, y) for x, y in zip(n, d)]
    return min(q), max(q)
def chain(num, den, k, k1, m, s, tol, step, L=0, U=0):
    out = []; Lm = L; Um = U
    while k < k1:
        step = min(step*2, k1-k)
        while True:
            r = rng(num, den, k, k+step, m)
            if r and (r[1]-r[0])*step/m < tol: break
            step = max(1, step*2//3)
            assert step > 1
        lo = math.floor(r[0]*s); hi = math.ceil(r[1]*s)
        L += lo*step; U += hi*step; k += step
        Lm = min(Lm, L); Um = max(Um, U)
        out.append((k, lo, hi))
    print(len(out), "intervals; at the end", L/(m*s), U/(m*s), "on the way", Lm/(m*s), Um/(m*s))
    return out, L, U
m, s = 10**7, 10**12
p1, L1, U1 = chain(numC, denC, 0, 2025000, m, s, 2e-9, 1000)
p2, L2, U2 = chain(numC, denC, 2025000, 2263381, m, s, 2e-8, 1000, L1, U1)
mt = 10**6
B0 = 2*10**11   # 2e-7
q1, M1, N1 = chain(numT, denT, 2727000, 36000000, mt, s, 3e-8, 1000, -B0, B0)
q2, M2, N2 = chain(numT, denT, 36000000, 39600000, mt, s, 1e-7, 1000, M1, N1)
def ps(p):
    out = []; line = "   "
    for i, (k, lo, hi) in enumerate(p):
        t = f" ({k}, {lo}, {hi})" + ("," if i+1 < len(p) else "")
        if len(line)+len(t) > 125: out.append(line); line = "   "
        line += t
    return '\n'.join(out+[line])
def il(p): return "[" + ", ".join(map(str, p)) + "]"
o = f'''import Verif.Proofs.PolyBound

/-! Written by tools/acklam.py: the polynomials of inv_Phi_approx with integer coefficients, and chains of intervals for the
logarithm of the derivative of their error, all checked here. -/
namespace Trng.Acklam
open PolyBound

/-- numerator and denominator of the central region, times 10^15 -/
def aP : List Int := {il(a)}
def bP : List Int := {il(b)}
/-- numerator (with the sign changed) and denominator of the outer regions, times 10^18 -/
def cP : List Int := {il(c)}
def dP : List Int := {il(d)}

/-- the derivative of `q a(q²)/b(q²)` is `V(q²)/b(q²)²` -/
def vP : List Int := padd (pmul aP bP) (pmul [0, 2] (psub (pmul (pder aP) bP) (pmul aP (pder bP))))
def b3P : List Int := pmul (pmul bP bP) bP
def numC : List Int := psub (psub (psc 2 (pmul (pder vP) b3P)) (psc 4 (pmul (pmul (pder bP) (pmul bP bP)) vP))) (pmul aP (pmul vP vP))
def denC : List Int := psc 2 (pmul vP b3P)
/-- the derivative of `c/d` is `W/d²` -/
def wP : List Int := psub (pmul (pder cP) dP) (pmul cP (pder dP))
def d3P : List Int := pmul (pmul dP dP) dP
def numT : List Int := padd (pmul [0, 1] (psub (psub (pmul (pder wP) d3P) (psc 2 (pmul (pmul (pder dP) (pmul dP dP)) wP))) (pmul cP (pmul wP wP))))
  (pmul [-1, 0, 1] (pmul wP d3P))
def denT : List Int := padd (pmul [0, 1] (pmul wP d3P)) {il([0]*len(denT))}

def numCL : List Int := {il(numC)}
def denCL : List Int := {il(denC)}
def numTL : List Int := {il(numT)}
def denTL : List Int := {il(denT)}
theorem numCL_eq : numCL = numC := by decide +kernel
theorem denCL_eq : denCL = denC := by decide +kernel
theorem numTL_eq : numTL = numT := by decide +kernel
theorem denTL_eq : denTL = denT := by decide +kernel

def piecesC1 : List (Int × Int × Int) := [
{ps(p1)}]
def piecesC2 : List (Int × Int × Int) := [
{ps(p2)}]
def piecesT1 : List (Int × Int × Int) := [
{ps(q1)}]
def piecesT2 : List (Int × Int × Int) := [
{ps(q2)}]

theorem chainC1 : chainOk 2000 numCL denCL {m} {s} (-{7*10**11}) {7*10**11} piecesC1 0 0 0 2025000 ({L1}) {U1} = true := by decide +kernel
theorem chainC2 : chainOk 2000 numCL denCL {m} {s} (-{67*10**11}) {67*10**11} piecesC2 2025000 ({L1}) {U1} 2263381 (-{67*10**11}) {67*10**11} = true := by
  decide +kernel
theorem chainT1 : chainOk 3000 numTL denTL {mt} {s} (-{22*10**11}) {22*10**11} piecesT1 2727000 (-{B0}) {B0} 36000000 ({M1}) {N1} = true := by decide +kernel
theorem chainT2 : chainOk 3000 numTL denTL {mt} {s} (-{7*10**12}) {7*10**12} piecesT2 36000000 ({M1}) {N1} 39600000 (-{7*10**12}) {7*10**12} = true := by
  decide +kernel

/-- the polynomials are positive where they are used -/
theorem b_pos : pieceOk 600 bP bP 0 2263381 {m} 1 1 1 = true := by decide +kernel
theorem a_pos : pieceOk 600 aP aP 0 2263381 {m} 1 1 1 = true := by decide +kernel
theorem v_pos : pieceOk 1200 vP vP 0 2263381 {m} 1 1 1 = true := by decide +kernel
theorem w_pos : pieceOk 1200 wP wP 2727000 39600000 {mt} 1 1 1 = true := by decide +kernel

end Trng.Acklam
'''
open('/verif/lean/Verif/Proofs/AcklamCert.lean', 'w').write(o)
