#!/usr/bin/env python3
"""Rewrites the axiom table of DESIGN.md from `#print axioms` of every theorem named in MANIFEST.json (run after lake build)."""
import json, os, re, subprocess, tempfile
root = os.path.abspath(os.path.join(os.path.dirname(__file__), ".."))
names = [t for c in json.load(open(root + "/MANIFEST.json"))["claims"] for t in c["theorems"]]
with tempfile.NamedTemporaryFile("w", suffix=".lean", delete=False) as f:
    f.write("import Verif\n" + "".join(f"#print axioms {t}\n" for t in names))
out = subprocess.run(["lake", "env", "lean", f.name], cwd=root + "/lean", capture_output=True, text=True).stdout
ax = {t: "none" for t in names if f"'{t}' does not depend on any axioms" in out}
for m in re.finditer(r"'(\S+)' depends on axioms: \[([^\]]*)\]", out):
    ax[m.group(1)] = " ".join(m.group(2).split())
missing = [t for t in names if t not in ax]
assert not missing, missing
groups = {}
for t in names: groups.setdefault(ax[t], []).append(t.split(".")[-1])
lines = []
for a in sorted(groups): lines += [f"**{a}** ({len(groups[a])}):", "", ", ".join(f"`{t}`" for t in sorted(groups[a])), ""]
p = root + "/DESIGN.md"; s = open(p).read()
b, e = "<!-- axioms begin -->", "<!-- axioms end -->"
assert b in s and e in s
open(p, "w").write(s[: s.index(b) + len(b)] + "\n\n" + "\n".join(lines) + "\n" + s[s.index(e):])
print({a: len(v) for a, v in groups.items()})
