#!/usr/bin/env python3
"""Writes Verif/Rng/XoTable.lean: the powers x^(2^i) modulo the characteristic polynomial of xoshiro256's step."""
P=0x10003c03c3f3ecb1904b4edcf26259f850280002bcefd1a5e9d116f2bb0f0f001
def xt(r):
    r<<=1
    return r^P if r>>256 else r
def mul(p,q):
    r=0
    for k in range(255,-1,-1):
        r=xt(r)
        if (p>>k)&1: r^=q
    return r
t=[2]
for i in range(256): t.append(mul(t[-1],t[-1]))
out="/-! Generated by tools/gen_xo.py: `x^(2^i)` for `i = 0 .. 256` modulo the characteristic polynomial.\nNothing here is trusted: `LemmasPow.lean` checks every entry. -/\nnamespace Verif.Rng\n\ndef sqTable : List Nat := [\n"
out+=",\n".join("  "+hex(v) for v in t)+"]\n\nend Verif.Rng\n"
open("/verif/lean/Verif/Rng/XoTable.lean","w").write(out)
