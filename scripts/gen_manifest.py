#!/usr/bin/env python3
"""Writes MANIFEST.json; theorem names are collected from the sources, notes are kept here."""
import json, os, re, glob
root = os.path.join(os.path.dirname(__file__), "..")
names = {}
for f in sorted(glob.glob(os.path.join(root, "lean/Verif/Props/*.lean"))):
    ns = []
    for line in open(f):
        m = re.match(r"namespace\s+(\S+)", line)
        if m: ns.append(m.group(1))
        m = re.match(r"end\s+(\S+)", line)
        if m and ns and ns[-1] == m.group(1): ns.pop()
        m = re.match(r"theorem\s+(c(\d\d)_\S+)", line)
        if m: names.setdefault("C" + m.group(2), []).append(".".join(ns + [m.group(1)]))
exec(open(os.path.join(root, "scripts/manifest_notes.py")).read())
claims = []
for line in open(os.path.join(root, "properties.jsonl")):
    p = json.loads(line)["id"]
    status, note = NOTES.get(p, ("partial", "No theorem yet."))
    claims.append({"property": p, "status": status, "theorems": names.get(p, []), "note": note})
json.dump({"claims": claims}, open(os.path.join(root, "MANIFEST.json"), "w"), indent=1)
print(len(claims), sum(1 for c in claims if c["theorems"]))
