#!/usr/bin/env python3
"""Collect the property theorems `Cxx_...` of lean/Verif/Props into MANIFEST.json.

usage: manifest.py [Cxx status note]...   status: proved | partial | not_applicable
Status and note of properties that are not named are kept."""
import glob, json, os, re, sys
root = os.path.dirname(os.path.dirname(os.path.abspath(__file__)))
path = os.path.join(root, "MANIFEST.json")
old = {c["property"]: c for c in json.load(open(path))["claims"]} if os.path.exists(path) else {}
new = {}
args = sys.argv[1:]
while args:
    new[args[0]] = (args[1], args[2]); args = args[3:]
th = {}
for f in sorted(glob.glob(os.path.join(root, "lean/Verif/Props/*.lean"))):
    ns = []
    for line in open(f):
        m = re.match(r"namespace (\S+)", line)
        if m: ns.append(m.group(1))
        m = re.match(r"end (\S+)", line)
        if m and ns and ns[-1] == m.group(1): ns.pop()
        m = re.match(r"(?:private |protected )?theorem ((C\d\d+)_\S+)", line)
        if m: th.setdefault(m.group(2), []).append(".".join(ns + [m.group(1)]))
out = []
for l in open(os.path.join(root, "properties.jsonl")):
    p = json.loads(l)["id"]
    o = old.get(p)
    if p in new: st, note = new[p]
    elif o: st, note = o["status"], o["note"]
    else: continue
    names = th.get(p, [])
    if st != "not_applicable" and not names: print("no theorem for", p)
    if st == "proved" and any(n.endswith(("_partial", "_wrong")) for n in names): print("check status of", p)
    out.append({"property": p, "status": st, "theorems": names, "note": note})
json.dump({"claims": out}, open(path, "w"), indent=1, ensure_ascii=False)
open(path, "a").write("\n")
print(len(out), "claims;", "missing:", " ".join(sorted(set(th) - {c["property"] for c in out})))
