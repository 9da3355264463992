#!/usr/bin/env python3
"""Writes /verif/MANIFEST.json: claims are listed here; unlisted properties are left out."""
import json, os, re
here = os.path.dirname(os.path.abspath(__file__))
B = "Dragonstash.Blocklist."
claims = []
def claim(p, status, thms, note):
    claims.append({"property": p, "status": status, "theorems": thms, "note": note})
exec(open(os.path.join(here, "claims.py")).read())
json.dump({"claims": claims}, open(os.path.join(here, "..", "MANIFEST.json"), "w"), indent=1)
# report duplicates
print(len(claims), "claims")
