#!/usr/bin/env python3
"""Generates MANIFEST.json from the theorem names in lean/Verif/Props and the notes below.

Theorems are collected by their prefix (C01_...).  STATUS gives the status per property,
NOTE the remark.  A property with no theorem yet is left out."""
import json, re, glob, os
root = os.path.dirname(os.path.dirname(os.path.abspath(__file__)))
thms = {}
for f in sorted(glob.glob(root + '/lean/Verif/Props/*.lean')):
    ns = []
    for line in open(f):
        m = re.match(r'\s*namespace\s+(\S+)', line)
        if m: ns.append(m.group(1))
        m = re.match(r'\s*end\s+(\S+)', line)
        if m and ns and ns[-1] == m.group(1): ns.pop()
        m = re.match(r'\s*(?:protected\s+)?theorem\s+(C\d+_\S+)', line)
        if m:
            n = m.group(1)
            thms.setdefault(n.split("_")[0], []).append('.'.join(ns + [n]))
exec(open(root + '/tools/notes.py').read())
claims = []
for i in sorted(set(thms) | set(NOTE)):
    claims.append({"property": i, "status": STATUS.get(i, "proved"),
                   "theorems": thms.get(i, []), "note": NOTE.get(i, "")})
json.dump({"claims": claims}, open(root + '/MANIFEST.json', 'w'), indent=1, ensure_ascii=False)
print(len(claims), 'claims', sum(map(len, thms.values())), 'theorems')
