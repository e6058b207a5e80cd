# Rewrites the generated part of /verif/DESIGN.md (after the marker) from MANIFEST.json, properties.jsonl and the
# axioms Lean reports for every theorem of the manifest. Needs an up-to-date `lake build` in /verif/lean.
import json, os, re, subprocess, tempfile
ROOT = os.path.dirname(os.path.dirname(os.path.abspath(__file__)))
MARK = "<!-- generated below by tools/design.py -->"
claims = json.load(open(ROOT + "/MANIFEST.json"))["claims"]
props = {}
for l in open(ROOT + "/properties.jsonl"):
    x = json.loads(l); props[x["id"]] = x
with tempfile.NamedTemporaryFile("w", suffix=".lean", delete=False) as f:
    f.write("import Verif\n")
    for c in claims:
        for t in c["theorems"]: f.write(f"#print axioms {t}\n")
out = subprocess.run(["lake", "env", "lean", f.name], cwd=ROOT + "/lean", capture_output=True, text=True).stdout
ax = {}
for m in re.finditer(r"'([^']+)' (?:depends on axioms: \[([^\]]*)\]|does not depend on any axioms)", out):
    ax[m.group(1)] = sorted(a.strip() for a in (m.group(2) or "").split(",") if a.strip())
md = ["", "## State of each property", "", "| id | property | status | remarks |", "|---|---|---|---|"]
for c in claims:
    md.append(f"| {c['property']} | {props[c['property']]['title']} | {c['status']} | {c['note']} |")
md += ["", "## Theorems and the axioms they depend on", "",
       "P = `propext`, Q = `Quot.sound`, C = `Classical.choice`; – = none. No other axiom occurs.", "",
       "| property | theorem | axioms |", "|---|---|---|"]
L = {"propext": "P", "Quot.sound": "Q", "Classical.choice": "C"}
for c in claims:
    for t in c["theorems"]:
        md.append(f"| {c['property']} | `{t.replace('Verif.', '', 1)}` | {' '.join(L[a] for a in ax[t]) or '–'} |")
p = ROOT + "/DESIGN.md"
d = open(p).read()
head = d.split(MARK)[0].rstrip() + "\n\n" + MARK + "\n"
open(p, "w").write(head + "\n".join(md) + "\n")
