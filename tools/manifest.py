# Regenerates /verif/MANIFEST.json from the theorem names in lean/Verif/Props and the notes below.
# A theorem belongs to property Cxx if its name starts with Cxx_.
import json, re, glob, os
ROOT = os.path.dirname(os.path.dirname(os.path.abspath(__file__)))
NOTES = json.load(open(os.path.join(ROOT, "tools", "notes.json")))
thms = {}
for f in sorted(glob.glob(os.path.join(ROOT, "lean/Verif/Props/*.lean"))):
    ns = []
    for line in open(f):
        m = re.match(r"namespace (\S+)", line)
        if m: ns.append(m.group(1))
        m = re.match(r"end (\S+)", line)
        if m and ns and ns[-1] == m.group(1): ns.pop()
        m = re.match(r"theorem (C\d\d+)_(\S+)", line)
        if m: thms.setdefault(m.group(1), []).append(".".join(ns + [m.group(1) + "_" + m.group(2)]))
ids = [json.loads(l)["id"] for l in open(os.path.join(ROOT, "properties.jsonl"))]
claims = []
for i in ids:
    n = NOTES.get(i, {"status": "partial", "note": "not yet proved"})
    claims.append({"property": i, "status": n["status"], "theorems": thms.get(i, []), "note": n["note"]})
for t in thms:
    assert t in ids, t
json.dump({"claims": claims}, open(os.path.join(ROOT, "MANIFEST.json"), "w"), indent=1)
print({c["property"]: (c["status"], len(c["theorems"])) for c in claims})
