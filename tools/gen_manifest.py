#!/usr/bin/env python3
"""Writes /verif/MANIFEST.json. Properties without an entry in CLAIMS are listed as not proved yet."""
import json, os
here = os.path.dirname(os.path.abspath(__file__))
C = {}
def c(pid, status, theorems, note=""):
    C[pid] = dict(property=pid, status=status, theorems=theorems, note=note)
exec(open(os.path.join(here, "claims.py")).read())
json.dump({"claims": [C[k] for k in sorted(C)]}, open(os.path.join(here, "..", "MANIFEST.json"), "w"), indent=1)
print(len(C))
