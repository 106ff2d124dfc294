#!/usr/bin/env python3
"""Mutation testing.  usage: mutate.py FILE.json
FILE.json: list of {"file","old","new","definition","claim","expect"}; `file` is relative to lean/.
Works in a scratch copy, never in /verif; appends results to seeded/LOG.jsonl.
`n` may give which occurrence to replace (default 0)."""
import json, os, re, shutil, subprocess, sys
ROOT = os.path.dirname(os.path.dirname(os.path.abspath(__file__)))
SCR = "/tmp/mut"
def sync():
    os.makedirs(SCR, exist_ok=True)
    subprocess.run(["rsync", "-a", "--delete", ROOT + "/lean/", SCR + "/"], check=False) if shutil.which("rsync") else \
        (shutil.rmtree(SCR, ignore_errors=True), shutil.copytree(ROOT + "/lean", SCR, symlinks=True))
def failing(out):
    names = []
    for m in re.finditer(r"error: (Verif/[\w/]+\.lean):(\d+):", out):
        f, ln = m.group(1), int(m.group(2))
        lines = open(os.path.join(SCR, f)).read().split("\n")
        for k in range(ln - 1, -1, -1):
            mm = re.match(r"(?:private |@\[.*\] )?(theorem|def|example|instance|lemma)\s*([\w.']*)", lines[k])
            if mm:
                n = (mm.group(2) if mm.group(1) != "example" else "example@%d" % (k + 1))
                if n not in names: names.append(n)
                break
    return names
muts = json.load(open(sys.argv[1]))
sync()
log = open(ROOT + "/seeded/LOG.jsonl", "a")
for mu in muts:
    p = os.path.join(SCR, mu["file"])
    src = open(p).read()
    parts = src.split(mu["old"])
    n = mu.get("n", 0)
    if len(parts) < n + 2:
        print("NOT FOUND", mu["definition"], mu["old"]); continue
    open(p, "w").write(mu["old"].join(parts[:n+1]) + mu["new"] + mu["old"].join(parts[n+1:]))
    unit = os.path.dirname(mu["file"]).replace("/", ".")
    names = []
    for target in ([[unit + ".Props"]] if os.path.exists(os.path.join(SCR, os.path.dirname(mu["file"]), "Props.lean")) else []) + [[]]:
        r = subprocess.run(["lake", "build"] + target, cwd=SCR, capture_output=True, text=True, timeout=1800)
        names = failing(r.stdout + r.stderr)
        if names: break
    open(p, "w").write(src)
    rec = {"definition": mu["definition"], "edit": mu["old"].strip() + "  =>  " + mu["new"].strip(),
           "claim_broken": mu["claim"], "theorems_failed": names, "theorems_tightened": mu.get("tightened", [])}
    if not names: rec["note"] = mu.get("note", "SURVIVED")
    print(("killed  " if names else "SURVIVED"), mu["definition"], names[:6])
    log.write(json.dumps(rec) + "\n"); log.flush()
subprocess.run(["lake", "build"], cwd=SCR, capture_output=True)
