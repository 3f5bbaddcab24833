#!/usr/bin/env python3
"""Run #print axioms on all theorems of MANIFEST.json; write tools/axioms.json."""
import json, os, re, subprocess
root = os.path.dirname(os.path.dirname(os.path.abspath(__file__)))
ths = sorted({t for c in json.load(open(root + "/MANIFEST.json"))["claims"] for t in c["theorems"]})
with open("/tmp/Axioms.lean", "w") as f:
    f.write("import Verif\n" + "".join("#print axioms %s\n" % t for t in ths))
out = subprocess.run(["lake", "env", "lean", "/tmp/Axioms.lean"], cwd=root + "/lean", capture_output=True, text=True).stdout
ax = {}
for m in re.finditer(r"'([^']+)' (?:depends on axioms: \[([^\]]*)\]|does not depend on any axioms)", out):
    ax[m.group(1)] = sorted(a.strip() for a in (m.group(2) or "").split(",") if a.strip())
assert set(ax) == set(ths), sorted(set(ths) - set(ax))[:5]
json.dump(ax, open(root + "/tools/axioms.json", "w"), indent=0, sort_keys=True)
print(len(ax), sorted({a for v in ax.values() for a in v}))
