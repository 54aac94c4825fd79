#!/usr/bin/env python3
"""Append or replace one property: reads a JSON object from stdin."""
import json, sys
p = '/verif/properties.jsonl'
new = json.load(sys.stdin)
rows = [json.loads(l) for l in open(p)]
rows = [r for r in rows if r['id'] != new['id']] + [new]
rows.sort(key=lambda r: r['id'])
open(p, 'w').write(''.join(json.dumps(r) + '\n' for r in rows))
