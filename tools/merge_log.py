#!/usr/bin/env python3
"""Append the latest result of every mutation not yet in seeded/LOG.jsonl. Survivors are reported, not appended."""
import json, os
here = os.path.join(os.path.dirname(__file__), "..")
log = os.path.join(here, "seeded/LOG.jsonl")
done = {json.loads(l)["id"] for l in open(log)}
res = {}
for l in open("/tmp/scratch/results.jsonl"):
    r = json.loads(l); res.setdefault(r["id"], []).append(r)
import sys
sys.path.insert(0, os.path.join(here, "seeded"))
from mutations import MUT
ids = {m["id"] for m in MUT}
with open(log, "a") as f:
    for i, rs in res.items():
        if i in done or i not in ids: continue
        r = rs[-1]
        if not r["killed"]:
            print("SURVIVED", i, r["definition"], r["edit"]); continue
        f.write(json.dumps(r) + "\n"); print("added", i)
