#!/usr/bin/env python3
"""Appends the results of seed.py to seeded/LOG.jsonl. usage: log_seeds.py out.jsonl"""
import json, os, sys
log = os.path.join(os.path.dirname(__file__), "..", "seeded", "LOG.jsonl")
done = {(json.loads(l)["definition"], json.loads(l)["edit"]) for l in open(log)} if os.path.exists(log) else set()
with open(log, "a") as f:
    for l in open(sys.argv[1]):
        r = json.loads(l)
        if (r["definition"], r["edit"]) in done or "error" in r: continue
        f.write(json.dumps(dict(definition=r["definition"], file=r["file"], edit=r["edit"],
            diff="%s  =>  %s" % (r["old"], r["new"]), claim=r["claim"], still_builds=r["built"], theorems_failed=r["failed"],
            theorems_tightened=r.get("tightened", []))) + "\n")
