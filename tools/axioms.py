#!/usr/bin/env python3
"""Rewrite the axiom table of DESIGN.md (between the AXIOMS markers) from `#print axioms` of every theorem in MANIFEST.json.
Needs a built project (`lake build` in lean/)."""
import json, re, subprocess, pathlib, tempfile, collections
root = pathlib.Path(__file__).resolve().parent.parent
claims = json.load(open(root / "MANIFEST.json"))["claims"]
names = [(c["property"], t) for c in claims for t in c["theorems"]]
src = "import Verif\n" + "".join(f"#print axioms {t}\n" for _, t in names)
with tempfile.NamedTemporaryFile("w", suffix=".lean", delete=False) as f:
    f.write(src)
out = subprocess.run(["lake", "env", "lean", f.name], cwd=root / "lean", capture_output=True, text=True).stdout
out = re.sub(r"\n\s+", " ", out)
ax = {}
for m in re.finditer(r"'([^']+(?:'[^'\s]+)*)' (?:depends on axioms: \[([^\]]*)\]|does not depend on any axioms)", out):
    ax[m.group(1)] = tuple(sorted(x.strip() for x in (m.group(2) or "").split(",") if x.strip()))
missing = [t for _, t in names if t not in ax]
assert not missing, missing
allowed = {"propext", "Classical.choice", "Quot.sound"}
assert all(set(a) <= allowed for a in ax.values())
groups = collections.OrderedDict()
for p, t in names:
    groups.setdefault(ax[t], []).append(t.split(".")[-1])
lines = []
for a in sorted(groups, key=lambda a: (len(a), a)):
    lines.append(f"* {', '.join('`%s`' % x for x in a) if a else 'no axioms'} ({len(groups[a])} theorems): " + ", ".join(f"`{t}`" for t in sorted(groups[a])))
d = root / "DESIGN.md"
s = d.read_text()
b, e = "<!-- AXIOMS BEGIN -->", "<!-- AXIOMS END -->"
s = s[:s.index(b) + len(b)] + "\n" + "\n".join(lines) + "\n" + s[s.index(e):]
d.write_text(s)
print({a: len(t) for a, t in groups.items()})
