#!/usr/bin/env python3
"""Lists the axioms of every theorem in MANIFEST.json (needs a finished `lake build` in /verif/lean)."""
import json, subprocess, re, os
names = []
for c in json.load(open('/verif/MANIFEST.json'))['claims']:
    for t in c['theorems']:
        if t not in names: names.append(t)
src = "import Verif\n" + "".join(f"#print axioms {n}\n" for n in names)
p = subprocess.run(['lake', 'env', 'lean', '--stdin'], input=src, capture_output=True, text=True, cwd='/verif/lean')
txt = re.sub(r'\n\s+', ' ', p.stdout)
rows = re.findall(r"'(\S+)' (?:depends on axioms: \[([^\]]*)\]|(does not depend on any axioms))", txt)
with open('/verif/AXIOMS.md', 'w') as f:
    f.write("# Axioms of the theorems in MANIFEST.json\n\nGenerated by `tools/gen_axioms.py` from `#print axioms`.\n\n| theorem | axioms |\n|---|---|\n")
    for n, a, _ in rows: f.write(f"| {n} | {a or 'none'} |\n")
print(len(names), len(rows), sorted({x.strip() for _, a, _ in rows for x in a.split(',') if x.strip()}))
