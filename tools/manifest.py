#!/usr/bin/env python3
"""Regenerate MANIFEST.json from the theorem names in lean/Verif/Props and the notes in tools/notes.json."""
import json, re, pathlib
root = pathlib.Path(__file__).resolve().parent.parent
props = [json.loads(l) for l in open(root / "properties.jsonl") if l.strip()]
notes = json.load(open(root / "tools" / "notes.json"))
thms = {}
for f in sorted((root / "lean/Verif/Props").glob("*.lean")):
    ns = []
    for line in open(f):
        m = re.match(r"namespace (\S+)", line)
        if m: ns.append(m.group(1))
        m = re.match(r"end (\S+)", line)
        if m and ns and ns[-1] == m.group(1): ns.pop()
        m = re.match(r"theorem ((C\d+)_\S+)", line)
        if m: thms.setdefault(m.group(2), []).append(".".join(ns + [m.group(1)]))
claims = []
for p in props:
    i = p["id"]
    t = thms.get(i, [])
    n = notes.get(i, {})
    if not t and n.get("status") != "not_applicable":
        continue
    claims.append({"property": i, "status": n.get("status", "proved"), "theorems": t, "note": n.get("note", "")})
json.dump({"claims": claims}, open(root / "MANIFEST.json", "w"), indent=1)
print(len(claims), "claims", sum(len(c["theorems"]) for c in claims), "theorems; missing:",
      [p["id"] for p in props if p["id"] not in {c["property"] for c in claims}])
