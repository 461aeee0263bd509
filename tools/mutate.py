#!/usr/bin/env python3
"""Seeded-bug testing: tools/mutate.py FILE.json
FILE.json: list of {file, definition, old, new, edit, claim}.  Each edit is applied in a scratch copy
of lean/ outside /verif, the project is rebuilt, and the failing theorems are printed as JSON lines
(appended to seeded/LOG.jsonl with --log)."""
import json, os, re, shutil, subprocess, sys
root = os.path.realpath(os.path.join(os.path.dirname(os.path.abspath(__file__)), ".."))
scratch = "/tmp/scratch_mut"
log = "--log" in sys.argv
muts = json.load(open([a for a in sys.argv[1:] if not a.startswith("--")][0]))
snap = "/tmp/snap_mut"
def copy(a, b):
    subprocess.run(["rsync", "-a", "--delete", a + "/", b + "/"], check=True) if shutil.which("rsync") else (
        shutil.rmtree(b, ignore_errors=True), shutil.copytree(a, b))
copy(root + "/lean", snap)   # later edits in /verif do not disturb a running round
def sync(): copy(snap, scratch)
def enclosing(f, line):
    src = open(f).read().split("\n"); ns = []; name = "?"
    for i, l in enumerate(src[:line]):
        m = re.match(r"namespace (\S+)", l)
        if m: ns.append(m[1])
        m = re.match(r"(?:@\[[^\]]*\] ?)?(?:private |protected )?(theorem|def|example|instance|abbrev|structure|inductive)\b ?(\S*)", l)
        if m: name = m[2] if m[1] != "example" else "example"
    return name
for m in muts:
    sync()
    p = os.path.join(scratch, m["file"])
    s = open(p).read()
    assert s.count(m["old"]) == 1, (m["old"], s.count(m["old"]))
    open(p, "w").write(s.replace(m["old"], m["new"]))
    r = subprocess.run(["lake", "build"], cwd=scratch, capture_output=True, text=True, timeout=1800)
    out = r.stdout + r.stderr
    failed = []
    for mm in re.finditer(r"error: (Verif/\S+?\.lean):(\d+):", out):
        n = enclosing(os.path.join(scratch, mm[1]), int(mm[2]))
        t = mm[1][6:-5].replace("/", ".") + ":" + n
        if t not in failed: failed.append(t)
    rec = {"definition": m["definition"], "edit": m["edit"], "claim_broken": m["claim"],
           "theorems_failed": failed, "theorems_tightened": m.get("tightened", [])}
    if m.get("note"): rec["note"] = m["note"]
    print(("OK   " if failed else "SURVIVED ") + json.dumps(rec), flush=True)
    if log: open(root + "/seeded/LOG.jsonl", "a").write(json.dumps(rec) + "\n")
