#!/usr/bin/env python3
"""Mutation testing of the theorems.  usage: mutate.py MUTANTS.py [first index]

MUTANTS.py defines M, a list of (definition, file, old, new, claim).  Each edit is applied to a
scratch copy of /tmp/mut/base (a built copy of lean/), which is then rebuilt.  One JSON line per attempt is
written to stdout.  /tmp/mut/deps.txt maps each property theorem to the constants its proof uses."""
import json, re, shutil, subprocess, sys, pathlib
SRC = pathlib.Path("/tmp/mut/base")
DST = pathlib.Path("/tmp/mut/lean")
ns = {}; exec(open(sys.argv[1]).read(), ns)
start = int(sys.argv[2]) if len(sys.argv) > 2 else 0
deps = {l.split()[0]: set(l.split()[1:]) for l in open("/tmp/mut/deps.txt") if l.strip()}
def decl_at(path, line):
    lines = path.read_text().split("\n")
    for i in range(min(line, len(lines)) - 1, -1, -1):
        m = re.match(r"(?:@\[.*?\]\s*)?(?:private |protected |noncomputable )?(theorem|lemma|def|example|structure|instance|inductive)\s*([^\s:({\[]*)", lines[i])
        if m: return m.group(2) or m.group(1)
    return "?"
for k, (d, f, old, new, claim) in enumerate(ns["M"]):
    if k < start: continue
    shutil.rmtree(DST, ignore_errors=True)
    subprocess.run(["cp", "-a", str(SRC), str(DST)], check=True)
    p = DST / "Verif" / f
    s = p.read_text()
    if s.count(old) < 1: print(json.dumps({"definition": d, "error": "pattern not found", "edit": old}), flush=True); continue
    p.write_text(s.replace(old, new, 1))
    r = subprocess.run(["lake", "build"], cwd=DST, capture_output=True, text=True)
    out = r.stdout + r.stderr
    broken = []
    for m in re.finditer(r"error: (Verif/\S+?\.lean):(\d+):\d+: (.*)", out):
        n = decl_at(DST / m.group(1), int(m.group(2)))
        e = (m.group(1).replace("Verif/", "").replace(".lean", ""), n)
        if e not in broken: broken.append(e)
    short = {n for _, n in broken}
    props = sorted(t for t, ds in deps.items() if any(("." + x).endswith("." + s) for x in ds for s in short))
    direct = sorted(n for fn, n in broken if fn.startswith("Props"))
    print(json.dumps({"definition": d, "file": "lean/Verif/" + f, "edit": f"{old.strip()}  ==>  {new.strip()}",
        "claim": claim, "result": "killed" if r.returncode else "SURVIVED",
        "failed": direct or [t.replace("Primo.", "") for t in props],
        "broken_lemmas": [f"{a}:{b}" for a, b in broken][:12], "tightened": []}, ensure_ascii=False), flush=True)
