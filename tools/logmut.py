#!/usr/bin/env python3
"""Append the results of tools/mutate.py (given file) to seeded/LOG.jsonl."""
import json, sys
with open("/verif/seeded/LOG.jsonl", "a") as o:
    for l in open(sys.argv[1]):
        d = json.loads(l)
        if "error" in d: continue
        d["failed"] = [x for x in d["failed"] if x != "example"]
        o.write(json.dumps({"definition": d["definition"], "file": d["file"], "edit": d["edit"],
            "claim_broken": d["claim"], "result": d["result"], "theorems_failed": d["failed"],
            "first_broken_lemmas": d["broken_lemmas"], "theorems_tightened": d["tightened"]}, ensure_ascii=False) + "\n")
