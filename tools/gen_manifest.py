#!/usr/bin/env python3
"""Regenerate MANIFEST.json: theorems named Cnn_* in lean/Verif, status and notes from tools/status.json."""
import json, re, glob, os
root = os.path.dirname(os.path.dirname(os.path.abspath(__file__)))
status = json.load(open(root + '/tools/status.json'))
ths = {}
for f in sorted(glob.glob(root + '/lean/Verif/**/*.lean', recursive=True)):
    ns = []
    for line in open(f):
        m = re.match(r'namespace (\S+)\s*$', line)
        if m: ns.append(m.group(1)); continue
        m = re.match(r'end (\S+)', line)
        if m and ns and m.group(1) == ns[-1]: ns.pop(); continue
        m = re.match(r'(?:theorem|lemma) (C(\d\d+)_\S+)', line)
        if m: ths.setdefault('C' + m.group(2), []).append('.'.join(ns + [m.group(1)]))
props = [json.loads(l)['id'] for l in open(root + '/properties.jsonl') if l.strip()]
claims = []
for p in props:
    if p in ths:
        st = status.get(p, ["partial", ""])
        claims.append({"property": p, "status": st[0], "theorems": ths[p], "note": st[1]})
    elif p in status and status[p][0] == "not_applicable":
        claims.append({"property": p, "status": "not_applicable", "theorems": [], "note": status[p][1]})
json.dump({"claims": claims}, open(root + '/MANIFEST.json', 'w'), indent=1)
print(len(claims), "claims", sum(len(c["theorems"]) for c in claims), "theorems; missing:",
      [p for p in props if p not in [c["property"] for c in claims]])
