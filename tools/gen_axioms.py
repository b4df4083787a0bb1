#!/usr/bin/env python3
"""Writes AXIOMS.md: the axioms each manifest theorem depends on, as printed by #print axioms (needs a built project)."""
import json, os, re, subprocess
root = os.path.join(os.path.dirname(os.path.abspath(__file__)), "..")
man = json.load(open(os.path.join(root, "MANIFEST.json")))
names = [t for c in man["claims"] for t in c["theorems"]]
src = "/tmp/axioms_check.lean"
open(src, "w").write("import Verif\n" + "\n".join("#print axioms " + n for n in names) + "\n")
out = subprocess.run(["lake", "env", "lean", src], cwd=os.path.join(root, "lean"), capture_output=True, text=True).stdout
groups = {}
for m in re.finditer(r"'([^']+)' (?:depends on axioms: \[([^\]]*)\]|does not depend on any axioms)", out):
    ax = ", ".join(sorted(a.strip() for a in (m.group(2) or "").split(",") if a.strip())) or "no axioms"
    groups.setdefault(ax, []).append(m.group(1).split(".")[-1])
with open(os.path.join(root, "AXIOMS.md"), "w") as f:
    f.write("# Axioms each theorem of MANIFEST.json depends on\n\nOutput of `#print axioms`, grouped; regenerate with `tools/gen_axioms.py`.\n")
    for ax in sorted(groups):
        f.write(f"\n## {ax}\n\n" + ", ".join(f"`{n}`" for n in groups[ax]) + "\n")
print({k: len(v) for k, v in groups.items()}, len(names))
