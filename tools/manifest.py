#!/usr/bin/env python3
"""Regenerates MANIFEST.json.  Also checks that every named theorem occurs in the sources."""
import json, re, glob, os
root = os.path.dirname(os.path.dirname(os.path.abspath(__file__)))
claims = []
def c(pid, status, theorems, note=""):
    claims.append({"property": pid, "status": status, "theorems": theorems, "note": note})
exec(open(os.path.join(root, "tools", "claims.py")).read())
names = set()
for f in glob.glob(os.path.join(root, "lean/Verif/**/*.lean"), recursive=True):
    ns = []
    for line in open(f):
        m = re.match(r"namespace (\S+)", line)
        if m: ns.append(m.group(1))
        m = re.match(r"end (\S+)", line)
        if m and ns and ns[-1] == m.group(1): ns.pop()
        m = re.match(r"(?:protected |private )?theorem (\S+)", line)
        if m: names.add(".".join(ns + [m.group(1)]))
ids = [json.loads(l)["id"] for l in open(os.path.join(root, "properties.jsonl"))]
for cl in claims:
    for t in cl["theorems"]:
        assert t in names, "unknown theorem " + t
    assert cl["property"] in ids
json.dump({"claims": claims}, open(os.path.join(root, "MANIFEST.json"), "w"), indent=1)
print(len(claims), "claims;", [i for i in ids if i not in [x["property"] for x in claims]], "missing")
