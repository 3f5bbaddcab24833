#!/usr/bin/env python3
"""Regenerate MANIFEST.json from tools/claims/*.json-like python lists and check theorem names."""
import json, os, re, glob
root = os.path.dirname(os.path.dirname(os.path.abspath(__file__)))
src = ""
names = set()
for f in glob.glob(root + "/lean/Verif/**/*.lean", recursive=True):
    ns = []
    for line in open(f):
        m = re.match(r"namespace (\S+)", line)
        if m:
            ns.append(m.group(1)); continue
        m = re.match(r"end (\S+)", line)
        if m and ns and ns[-1] == m.group(1):
            ns.pop(); continue
        m = re.match(r"(?:@\[[^\]]*\]\s*)?(?:private |protected |noncomputable )*theorem (\S+)", line)
        if m:
            names.add(".".join(ns + [m.group(1)]))
claims = []
exec(open(root + "/tools/claims.py").read())
bad = [t for c in claims for t in c["theorems"] if t not in names]
props = [json.loads(l)["id"] for l in open(root + "/properties.jsonl")]
claimed = {c["property"] for c in claims}
used = {t for c in claims for t in c["theorems"]}
orphans = sorted(n for n in names if re.search(r"\.C\d\d", n) and n not in used)
claims.sort(key=lambda c: c["property"])
json.dump({"claims": claims}, open(root + "/MANIFEST.json", "w"), indent=1, ensure_ascii=False)
print("claims", len(claims), "missing theorems", bad, "unlisted theorems", orphans,
      "unclaimed properties", [p for p in props if p not in claimed],
      "unknown properties", sorted(claimed - set(props)))
