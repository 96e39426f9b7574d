#!/usr/bin/env python3
"""Mutation tester.  Usage: mutate.py PropsModule mutations.json
Each mutation: {"definition","file" (under lean/Verif),"old","new","claim"}.  Works on a concatenation of the
module's sources in /tmp, so that error recovery shows exactly which property theorems lose their proof."""
import json, re, subprocess, sys, pathlib
root = pathlib.Path("/verif/lean")
mod, muts = sys.argv[1], json.load(open(sys.argv[2]))
def closure(m, seen, ext):
    if m in seen: return
    src = (root / (m.replace(".", "/") + ".lean")).read_text()
    for i in re.findall(r"^import (\S+)", src, re.M):
        if i.startswith("Verif"): closure(i, seen, ext)
        else: ext.add(i)
    seen[m] = re.sub(r"^import \S+\n", "", src, flags=re.M)
seen, ext = {}, set()
for m in mod.split(","): closure(m, seen, ext)
def names():
    out = []
    for m, s in seen.items():
        if ".Props." not in m: continue
        ns = []
        for line in s.splitlines():
            q = re.match(r"namespace (\S+)", line)
            if q: ns.append(q.group(1))
            q = re.match(r"end (\S+)", line)
            if q and ns and ns[-1] == q.group(1): ns.pop()
            q = re.match(r"theorem (C\d+_\S+)", line)
            if q: out.append(".".join(ns + [q.group(1)]))
    return out
allnames = names()
def run(texts, tag):
    f = pathlib.Path(f"/tmp/mut_{tag}.lean")
    body = "".join(f"import {i}\n" for i in sorted(ext))
    for m, s in texts.items(): body += s + "\n"
    body += "".join(f"#print axioms {n}\n" for n in allnames)
    f.write_text(body)
    r = subprocess.run(["lake", "env", "lean", str(f)], cwd=root, capture_output=True, text=True)
    out = r.stdout + r.stderr
    bad = []
    for n in allnames:
        q = re.search(r"'" + re.escape(n) + r"' (does not depend|depends on axioms: \[([^\]]*)\])", out)
        if q is None or (q.group(2) and "sorryAx" in q.group(2)): bad.append(n)
    return bad, out
bad, out = run(seen, "base")
if bad: print("BASE BROKEN", bad, out[:3000]); sys.exit(1)
for k, mu in enumerate(muts):
    m = "Verif." + mu["file"].replace("/", ".").removesuffix(".lean")
    s = seen[m]
    if s.count(mu["old"]) != 1: print("NOMATCH", s.count(mu["old"]), mu); continue
    t = dict(seen); t[m] = s.replace(mu["old"], mu["new"])
    bad, out = run(t, "x")
    defbad = re.findall(r"^(.*error.*)$", out, re.M)[:1]
    rec = {"definition": mu["definition"], "edit": mu.get("edit") or f"{mu['old']!r} -> {mu['new']!r}", "claim": mu["claim"],
           "failed": bad, "tightened": mu.get("tightened", [])}
    print(("KILLED " if bad else "SURVIVED ") + json.dumps(rec)[:400])
    if not bad: print("   ", defbad)
    with open("/verif/seeded/LOG.jsonl", "a") as g: g.write(json.dumps(rec) + "\n")
