"""Writes MANIFEST.json. Theorem names live in namespace Verif."""
import json, os, re
ROOT = os.path.dirname(os.path.dirname(os.path.abspath(__file__)))
CLAIMS = []
def c(pid, status, thms, note):
    CLAIMS.append({"property": pid, "status": status, "theorems": ["Verif." + t for t in thms], "note": note})

exec(open(os.path.join(ROOT, "tools", "claims.py")).read())

src = ""
for dp, _, fs in os.walk(os.path.join(ROOT, "lean", "Verif")):
    for f in fs:
        src += open(os.path.join(dp, f)).read()
names = set(re.findall(r"^(?:private )?theorem ([\w.']+)", src, re.M))
for cl in CLAIMS:
    for t in cl["theorems"]:
        short = t[len("Verif."):]
        if short not in names and short.split(".")[-1] not in names:
            raise SystemExit("unknown theorem " + t)
ids = [json.loads(l)["id"] for l in open(os.path.join(ROOT, "properties.jsonl"))]
seen = {cl["property"] for cl in CLAIMS}
print("without claim:", [i for i in ids if i not in seen], "unknown ids:", [i for i in seen if i not in ids])
json.dump({"claims": CLAIMS}, open(os.path.join(ROOT, "MANIFEST.json"), "w"), indent=1)
