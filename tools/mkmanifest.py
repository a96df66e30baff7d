#!/usr/bin/env python3
# Generates /verif/MANIFEST.json from the theorems named Cnn_* under lean/Verif/Props.
import json, os, re, glob
root = os.path.join(os.path.dirname(os.path.abspath(__file__)), "..")
notes = json.load(open(os.path.join(root, "tools", "notes.json")))
thms = {}
for f in sorted(glob.glob(os.path.join(root, "lean/Verif/Props/**/*.lean"), recursive=True)):
    ns = []
    for line in open(f):
        m = re.match(r"namespace\s+(\S+)", line)
        if m: ns.append(m.group(1))
        m = re.match(r"end\s+(\S+)", line)
        if m and ns and ns[-1] == m.group(1): ns.pop()
        m = re.match(r"(?:private )?theorem\s+(C\d\d+)_(\S+)", line)
        if m: thms.setdefault(m.group(1), []).append(".".join(ns + [m.group(1) + "_" + m.group(2)]))
claims = []
ids = [json.loads(l)["id"] for l in open(os.path.join(root, "properties.jsonl"))]
for i in ids:
    n = notes.get(i, {})
    if i in thms:
        st = n.get("status") or ("partial" if any(t.endswith("_partial") for t in thms[i]) else "proved")
        claims.append(dict(property=i, status=st, theorems=thms[i], note=n.get("note", "")))
    elif n.get("status"):
        claims.append(dict(property=i, status=n["status"], theorems=[], note=n.get("note", "")))
json.dump({"claims": claims}, open(os.path.join(root, "MANIFEST.json"), "w"), indent=1, ensure_ascii=False)
print(len(claims), "claims;", "missing:", [i for i in ids if i not in {c["property"] for c in claims}])
