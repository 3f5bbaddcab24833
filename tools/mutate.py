#!/usr/bin/env python3
"""Seeded-bug runner.  Usage: mutate.py [name-prefix].

Each entry of tools/mutations.py edits one definition of the model in a scratch copy
(/tmp/mut), rebuilds the modules of that area and appends one line to seeded/LOG.jsonl with the
declarations whose proofs failed.  Entries already in the log are skipped."""
import json, os, re, subprocess, sys
root = os.path.dirname(os.path.dirname(os.path.abspath(__file__)))
scratch = "/tmp/mut"
log = root + "/seeded/LOG.jsonl"
muts = []


def m(name, file, definition, old, new, claim, note, target, tightened=()):
    muts.append(dict(name=name, file=file, definition=definition, old=old, new=new, claim=claim,
                     note=note, target=target, tightened=list(tightened)))


exec(open(root + "/tools/mutations.py").read())
done = set()
if os.path.exists(log):
    done = {json.loads(l).get("name") for l in open(log) if l.strip()}
pref = sys.argv[1] if len(sys.argv) > 1 else ""
subprocess.run(["rsync", "-a", "--delete", root + "/lean/", scratch + "/"], check=True) \
    if subprocess.run(["which", "rsync"], capture_output=True).returncode == 0 else \
    subprocess.run(f"rm -rf {scratch}; cp -a {root}/lean {scratch}", shell=True, check=True)
for x in muts:
    if x["name"] in done or not x["name"].startswith(pref):
        continue
    path = f"{scratch}/Verif/{x['file']}"
    orig = open(f"{root}/lean/Verif/{x['file']}").read()
    if orig.count(x["old"]) != 1:
        print("SKIP", x["name"], "old text occurs", orig.count(x["old"]), "times")
        continue
    open(path, "w").write(orig.replace(x["old"], x["new"]))
    r = subprocess.run(["lake", "build"] + x["target"].split(), cwd=scratch, capture_output=True, text=True)
    out = r.stdout + r.stderr
    failed = []
    for f, line in re.findall(r"error: (Verif/\S+?\.lean):(\d+):\d+", out):
        lines = open(f"{scratch}/{f}").read().split("\n")
        for i in range(int(line) - 1, -1, -1):
            mm = re.match(r"(?:@\[[^\]]*\]\s*)?(?:private |protected |noncomputable )*(theorem|lemma|def|example|instance)\s*(\S*)", lines[i])
            if mm:
                nm = f"{f[6:-5].replace('/', '.')}: " + (mm.group(2) if mm.group(1) in ("theorem", "lemma") else mm.group(1) + " " + mm.group(2))
                if nm not in failed:
                    failed.append(nm)
                break
    notbuilt = sorted(set(re.findall(r"^- (Verif\.\S+)", out, re.M)))
    entry = dict(name=x["name"], definition=x["definition"], edit=f"{x['old'].strip()}  ==>  {x['new'].strip()}",
                 claim=f"{x['claim']}: {x['note']}", failed=failed, modules_failing=notbuilt,
                 caught=r.returncode != 0, tightened=x["tightened"])
    open(path, "w").write(orig)
    print(x["name"], "CAUGHT" if r.returncode else "*** SURVIVED ***", failed[:4])
    if r.returncode or x["tightened"]:
        with open(log, "a") as fh:
            fh.write(json.dumps(entry, ensure_ascii=False) + "\n")
