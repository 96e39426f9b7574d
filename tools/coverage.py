#!/usr/bin/env python3
"""Which lines of /repo are cited by the comments of the model, and do the cited ranges exist?
usage: coverage.py [-v]   (-v prints the uncited code lines)"""
import re, pathlib, sys
root = pathlib.Path(__file__).resolve().parent.parent
repo = pathlib.Path("/repo")
srcs = {p.name: p for p in list(repo.glob("include/message_filters/**/*.hpp")) + list(repo.glob("src/*.cpp")) + list(repo.glob("src/message_filters/*.py"))}
n = {k: len(p.read_text().splitlines()) for k, p in srcs.items()}
cov = {k: set() for k in srcs}
bad = []
for f in sorted((root / "lean/Verif/Model").glob("*.lean")):
    t = f.read_text()
    for com in re.findall(r"/-.*?-/", t, re.S):
        cur = None
        # tokens: file names, and number(-number) after "file:" or "line(s)" or as continuation ", 12-13"
        for m in re.finditer(r"([\w/]+\.(?:hpp|cpp|py)):?|(?:(?<=[\s:,(])|^)(\d+)(?:-(\d+))?(?=[\s,.:;)\]]|$)", com):
            if m.group(1):
                cur = m.group(1).split("/")[-1]
                expect = com[m.end() - 1] == ":"
                if cur not in srcs: cur = None
                continue
            if not cur: continue
            pre = com[max(0, m.start() - 8):m.start()]
            if not re.search(r"(:|lines? |, |and |: )$", pre): continue
            a = int(m.group(2)); b = int(m.group(3) or a)
            if a > b or b > n[cur]:
                bad.append((f.name, cur, a, b)); continue
            if b - a > 400: continue
            cov[cur].update(range(a, b + 1))
        # "line 99" without file name: last file of the comment or module default is ignored on purpose
for k in sorted(srcs):
    L = srcs[k].read_text().splitlines()
    code = [i for i, l in enumerate(L, 1) if l.strip() and not re.match(r"\s*(//|\*|/\*|#|\}|\{|public:|private:|protected:|namespace|using|typedef|template)", l)]
    un = [i for i in code if i not in cov[k]]
    print(f"{k:35s} code {len(code):4d} cited {len(code)-len(un):4d}")
    if "-v" in sys.argv:
        for i in un: print(f"    {i}: {L[i-1]}")
print("bad citations:", bad)
