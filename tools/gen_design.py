#!/usr/bin/env python3
"""DESIGN.md = tools/design_head.md + the table of properties (from properties.jsonl, MANIFEST.json, tools/plan.py)."""
import json
P=[json.loads(l) for l in open('/verif/properties.jsonl')]
M={c['property']:c for c in json.load(open('/verif/MANIFEST.json'))['claims']}
plan={}
exec(open('/verif/tools/plan.py').read())
out=open('/verif/tools/design_head.md').read()
out+="\n| id | property | status | modelled in | how it is proved, and what is missing |\n|---|---|---|---|---|\n"
for p in P:
    c=M[p['id']]; mod,how=plan[p['id']]
    note=c['note'].replace('|','\\|')
    out+=f"| {p['id']} | {p['title']} | {c['status']} | {mod} | {how} {note} |\n"
open('/verif/DESIGN.md','w').write(out)
