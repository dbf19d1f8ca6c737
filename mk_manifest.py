#!/usr/bin/env python3
"""Writes MANIFEST.json from the table below (run after editing)."""
import json
C = []
def claim(p, status, theorems, note=""):
    C.append({"property": p, "status": status, "theorems": ["KPhp." + t for t in theorems], "note": note})
exec(open("/verif/manifest_claims.py").read())
json.dump({"claims": C}, open("/verif/MANIFEST.json", "w"), indent=1)
