#!/usr/bin/env python3
"""Checks the citations file:lines in the Lean comments against /repo.

Flags a citation if its range is outside the file, begins or ends with an empty line, has unbalanced braces, or if none of the
ranges of a comment contains any of the names the comment puts in backticks.  Usage: check_cites.py [module ...] [-v]"""
import glob, os, re, sys
ROOT = "/repo/src/jstd"
FILES = {}
for d, _, fs in os.walk(ROOT):
    for f in fs: FILES.setdefault(f, os.path.join(d, f))
AB = {"T15": "group15_flat_table.hpp", "T16": "group16_flat_table.hpp", "M15": "group15_flat_map.hpp", "M16": "group16_flat_map.hpp",
      "F15": "flat_map_iterator15.hpp", "F": "flat_map_iterator.hpp", "RH": "robin_hash_map.h", "FL": "flat16_hash_map.h"}
HERE = os.path.join(os.path.dirname(os.path.dirname(os.path.abspath(__file__))), "lean", "Verif")
cache = {}
def lines(f):
    if f not in cache: cache[f] = open(FILES[f], errors="replace").read().split("\n")
    return cache[f]
CITE = re.compile(r"\b([A-Za-z0-9_]+(?:\.hpp|\.h)?):(\d+(?:-\d+)?(?:,\s*\d+(?:-\d+)?)*)")
verbose = "-v" in sys.argv
mods = [x for x in sys.argv[1:] if x != "-v"] or sorted(os.path.basename(x)[:-5] for x in glob.glob(HERE + "/*.lean"))
bad = total = 0
for m in mods:
    s = open(f"{HERE}/{m}.lean").read()
    ab = dict(AB)
    for k, v in re.findall(r"\b([A-Z][A-Z0-9]*) = `?(?:[\w/]*/)?(\w+\.h(?:pp)?)", s): ab[k] = v
    for c in re.finditer(r"/-[-!]?(.*?)-/", s, re.S):
        t = c[1]; ln = s.count("\n", 0, c.start()) + 1
        names = {y for x in re.findall(r"`([^`]+)`", t) for y in re.findall(r"[A-Za-z_]\w{3,}", x)}
        body = ""; probs = []; n = 0
        for f, rs in CITE.findall(t):
            f = ab.get(f, f)
            if f not in FILES: continue
            L = lines(f)
            for r in re.split(r",\s*", rs):
                a, b = (r.split("-") + [r])[:2]; a, b = int(a), int(b); n += 1; total += 1
                if b > len(L) or a > b: probs.append(f"{r}: out of range"); continue
                seg = L[a-1:b]; txt = "\n".join(seg); body += txt + "\n"
                w = []
                if not seg[0].strip(): w.append("empty first line")
                if not seg[-1].strip(): w.append("empty last line")
                code = re.sub(r"//.*", "", txt)
                if b > a and code.count("{") != code.count("}"): w.append("braces")
                if w: probs.append(f"{r}: {', '.join(w)} | {seg[0].strip()[:50]} .. {seg[-1].strip()[:40]}")
        if n and names and not any(re.search(r"\b" + x + r"\b", body) for x in names): probs.append("no name in range: " + " ".join(sorted(names)))
        if probs:
            bad += 1
            print(f"{m}:{ln} {' '.join(t.split())[:90]}")
            for p in probs: print("     ", p)
print(total, "citations,", bad, "comments flagged")
