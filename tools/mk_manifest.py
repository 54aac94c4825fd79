#!/usr/bin/env python3
"""Write MANIFEST.json from the table below; properties without an entry are listed as partial
with no theorem yet."""
import json, os
here = os.path.dirname(os.path.dirname(os.path.abspath(__file__)))
CLAIMS = {}
def c(prop, status, theorems, note=""):
    CLAIMS[prop] = dict(property=prop, status=status, theorems=["GA." + t for t in theorems], note=note)

exec(open(os.path.join(here, "tools", "claims.py")).read())

ids = [json.loads(l)["id"] for l in open(os.path.join(here, "properties.jsonl"))]
out = []
for i in ids:
    out.append(CLAIMS.get(i, dict(property=i, status="partial", theorems=[], note="not yet modelled")))
json.dump({"claims": out}, open(os.path.join(here, "MANIFEST.json"), "w"), indent=1)
print(len(CLAIMS), "of", len(ids))
