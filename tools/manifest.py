"""Writes MANIFEST.json from the table below."""
import json, os
C = []
def claim(p, status, theorems, note=""):
    C.append({"property": p, "status": status, "theorems": theorems, "note": note})
P = "Mfs.Props."
exec(open(os.path.join(os.path.dirname(__file__), "claims.py")).read())
json.dump({"claims": sorted(C, key=lambda c: c["property"])}, open(os.path.join(os.path.dirname(__file__), "..", "MANIFEST.json"), "w"), indent=1)
