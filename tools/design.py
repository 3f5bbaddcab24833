#!/usr/bin/env python3
"""Assemble DESIGN.md."""
import glob, json, os, re
root = os.path.dirname(os.path.dirname(os.path.abspath(__file__)))
exec(open(root + "/tools/design_text.py").read())
claims = {c["property"]: c for c in json.load(open(root + "/MANIFEST.json"))["claims"]}
props = [json.loads(l) for l in open(root + "/properties.jsonl")]
where, doc = {}, {}
for f in sorted(glob.glob(root + "/lean/Verif/*/*.lean")):
    s = open(f).read()
    mod = f.split("/Verif/")[1][:-5]
    for m in re.finditer(r"^theorem (C\d+\w*)", s, re.M):
        where[m.group(1)] = mod
    for m in re.finditer(r"/--((?:(?!-/).)*?)-/\s*theorem (C\d+\w*)", s, re.S):
        doc[m.group(2)] = " ".join(m.group(1).split())
out = [HEAD, "| id | property | status | modules | model and proof |", "|----|----------|--------|---------|-----------------|"]
for p in props:
    c = claims[p["id"]]
    mods = []
    for t in c["theorems"]:
        t = t.split(".")[-1]
        if where.get(t) and where[t] not in mods:
            mods.append(where[t])
    out.append("| %s | %s | %s | %s | %s |" % (p["id"], p["title"], c["status"], ", ".join(mods), PLAN[p["id"]]))
out.append(COVER)
out.append("## Findings\n\nEach of these is a theorem about the model, with a concrete witness.\n")
bad = re.compile(r"finding|documented_false|key_mirrored|key_missing")
for t in sorted((t for t in doc if bad.search(t)), key=lambda t: (int(re.match(r"C(\d+)", t).group(1)), t)):
    text = re.sub(r"^\**C\d+\**,? ?(finding)?s?\**:?", "", doc[t])
    text = re.sub(r"^[\s:]*(\(finding\)|\*\*|[Ff]inding)?[\s:.*]*", "", text)
    text = re.sub(r"^violated by the code\.\*\*\s*", "", text)
    out.append("* `%s` – %s" % (t, text))
out.append(TRUST)
ax = json.load(open(root + "/tools/axioms.json"))
groups = {}
for t, a in ax.items():
    groups.setdefault(tuple(a), []).append(t.replace("Verif.", ""))
for a in sorted(groups, key=lambda a: (len(a), a)):
    out.append("* %s: %s\n" % (", ".join("`%s`" % x for x in a) or "no axioms", ", ".join("`%s`" % t for t in sorted(groups[a]))))
open(root + "/DESIGN.md", "w").write("\n".join(out) + "\n")
