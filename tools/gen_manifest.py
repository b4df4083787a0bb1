#!/usr/bin/env python3
"""Generate MANIFEST.json: theorems are collected from lean/Verif/Props by their Cnn_ prefix; status and notes from NOTES."""
import re, json, glob, os
root = os.path.dirname(os.path.dirname(os.path.abspath(__file__)))
ids = [json.loads(l)["id"] for l in open(f"{root}/properties.jsonl") if l.strip()]
thms = {i: [] for i in ids}
for f in sorted(glob.glob(f"{root}/lean/Verif/Props/*.lean")):
    ns = "ERegex.Props"
    for line in open(f):
        m = re.match(r"\s*theorem\s+(C\d\d)(_\w+)", line)
        if m and m.group(1) in thms:
            thms[m.group(1)].append(f"{ns}.{m.group(1)}{m.group(2)}")
exec(open(f"{root}/tools/notes.py").read())
claims = []
for i in ids:
    st, note = NOTES.get(i, ("partial", ""))
    if not thms[i]:
        continue
    claims.append({"property": i, "status": st, "theorems": thms[i], "note": note})
json.dump({"claims": claims}, open(f"{root}/MANIFEST.json", "w"), indent=1, ensure_ascii=False)
print(len(claims), "claims", sum(len(c["theorems"]) for c in claims), "theorems; missing:", [i for i in ids if not thms[i]])
