#!/usr/bin/env python3
"""Test the theorems against wrong programs: apply one edit at a time to a scratch copy of the Lean project,
rebuild, and append a line to seeded/LOG.jsonl.  usage: mutate.py mutants.py [first [last]]"""
import json, os, re, subprocess, sys, shutil
root = os.path.dirname(os.path.dirname(os.path.abspath(__file__)))
scratch = "/tmp/mut/lean"
log = os.path.join(root, "seeded", "LOG.jsonl")
ns = {}
exec(open(sys.argv[1]).read(), ns)
muts = ns["M"]
lo = int(sys.argv[2]) if len(sys.argv) > 2 else 0
hi = int(sys.argv[3]) if len(sys.argv) > 3 else len(muts)

def sync():
    os.makedirs("/tmp/mut", exist_ok=True)
    subprocess.run(["rsync", "-a", "--delete", root + "/lean/", scratch + "/"], check=True) if shutil.which("rsync") else \
        (shutil.rmtree(scratch, ignore_errors=True), subprocess.run(["cp", "-a", root + "/lean", scratch], check=True))

decl = re.compile(r"^(?:@\[[^\]]*\]\s*)?(?:private |protected |noncomputable )?(theorem|lemma|def|instance|example|structure)\s*([^\s:({\[]*)")
def enclosing(path, line):
    ls = open(path).read().split("\n")
    for i in range(min(line, len(ls)) - 1, -1, -1):
        m = decl.match(ls[i])
        if m:
            return m.group(2) or f"{m.group(1)}@{os.path.basename(path)}:{i+1}"
    return "?"

sync()
for n in range(lo, hi):
    m = muts[n]
    f = os.path.join(scratch, "Verif", m["file"])
    src = open(f).read()
    if src.count(m["old"]) < 1:
        print(n, "PATTERN NOT FOUND", m["old"][:60]); continue
    open(f, "w").write(src.replace(m["old"], m["new"], m.get("count", 1)))
    out = subprocess.run(["lake", "build"] + m.get("targets", []), cwd=scratch, capture_output=True, text=True, timeout=3600)
    txt = out.stdout + out.stderr
    failed = []
    for g in re.finditer(r"^error: (Verif/\w+\.lean):(\d+):\d+", txt, re.M):
        name = enclosing(os.path.join(scratch, g.group(1)), int(g.group(2)))
        if name not in failed: failed.append(name)
    killed = bool(failed)
    rec = {"definition": m["def"], "edit": m["edit"], "breaks": m["claim"], "failed": failed, "tightened": []}
    if not killed:
        rec["outcome"] = "SURVIVED"
    print(n, "killed" if killed else "SURVIVED", m["def"], failed[:6], flush=True)
    with open(log, "a") as h: h.write(json.dumps(rec, ensure_ascii=False) + "\n")
    open(f, "w").write(src)
