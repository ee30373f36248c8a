"""Writes MANIFEST.json from the table below."""
import json, os

CLAIMS = []

def c(prop, status, theorems, note):
    CLAIMS.append({"property": prop, "status": status,
                   "theorems": ["OM." + t for t in theorems.split()], "note": note})

exec(open(os.path.join(os.path.dirname(__file__), "claims_table.py")).read())
CLAIMS.sort(key=lambda x: x["property"])
out = os.path.join(os.path.dirname(__file__), "..", "MANIFEST.json")
with open(out, "w") as f:
    json.dump({"claims": CLAIMS}, f, indent=1)
    f.write("\n")
