#!/usr/bin/env python3
"""Seeded-bug experiments. Reads a JSON-lines file of edits
{definition, file, old, new, edit, claim}, applies each edit alone to a scratch copy of the Lake project, rebuilds and
reports which declarations no longer check. Results are appended to the output file.
usage: seed.py edits.jsonl out.jsonl"""
import json, os, re, subprocess, sys
SRC = os.environ.get("SEED_SRC", "/tmp/scratch/snap"); DST = os.environ.get("SEED_DST", "/tmp/scratch/lean")
def sync():
    os.makedirs(DST, exist_ok=True)
    subprocess.run(["rsync", "-a", "--delete", SRC + "/", DST + "/"], check=True) if os.path.exists("/usr/bin/rsync") else \
        subprocess.run("rm -rf %s && cp -a %s %s" % (DST, SRC, DST), shell=True, check=True)
DECL = re.compile(r"^(?:noncomputable |private |@\[[^\]]*\] )*(theorem|lemma|def|example|structure|instance|inductive|abbrev)\s*([^\s:({\[]*)")
def enclosing(path, line):
    name = "?"
    for i, l in enumerate(open(path), 1):
        if i > line: break
        m = DECL.match(l)
        if m: name = m.group(2) if m.group(1) != "example" else "example@%d" % i
    return name
def run(e):
    sync()
    p = os.path.join(DST, e["file"])
    s = open(p).read()
    if s.count(e["old"]) < 1: return dict(e, error="pattern not found")
    s = s.replace(e["old"], e["new"], 1)
    open(p, "w").write(s)
    r = subprocess.run(["lake", "build"], cwd=DST, capture_output=True, text=True)
    out = r.stdout + r.stderr
    failed = []
    for m in re.finditer(r"^error: (Verif/[\w/]+\.lean):(\d+):\d+:", out, re.M):
        n = m.group(1)[6:-5] + ":" + enclosing(os.path.join(DST, m.group(1)), int(m.group(2)))
        if n not in failed: failed.append(n)
    return dict(e, built=(r.returncode == 0), failed=failed)
if __name__ == "__main__":
    done = set()
    if os.path.exists(sys.argv[2]):
        done = {(json.loads(l)["file"], json.loads(l)["old"], json.loads(l)["new"]) for l in open(sys.argv[2])}
    for l in open(sys.argv[1]):
        if not l.strip(): continue
        e = json.loads(l)
        if (e["file"], e["old"], e["new"]) in done: continue
        r = run(e)
        with open(sys.argv[2], "a") as f: f.write(json.dumps(r) + "\n")
        print(r.get("built"), e["definition"], "|", e["edit"], "->", r.get("failed"), r.get("error", ""), flush=True)
