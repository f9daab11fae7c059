#!/usr/bin/env python3
"""Generates MANIFEST.json and lean/Verif/Props/Axioms.lean from tools/claims.py."""
import json, os, re, sys
sys.path.insert(0, os.path.dirname(__file__))
sys.dont_write_bytecode = True
from claims import CLAIMS
root = os.path.join(os.path.dirname(__file__), "..")
claims = []
for prop, status, thms, note in CLAIMS:
    claims.append({"property": prop, "status": status, "theorems": ["Clingcon.Props." + t for t in thms], "note": note})
with open(os.path.join(root, "MANIFEST.json"), "w") as f:
    json.dump({"claims": claims}, f, indent=1)
    f.write("\n")
mods = sorted(m[:-5] for m in os.listdir(os.path.join(root, "lean/Verif/Props")) if m.endswith(".lean") and m != "Axioms.lean")
with open(os.path.join(root, "lean/Verif/Props/Axioms.lean"), "w") as f:
    for m in mods:
        f.write(f"import Verif.Props.{m}\n")
    f.write("\n/-! Axioms of every theorem listed in MANIFEST.json (generated by tools/manifest.py). -/\n\n")
    for c in claims:
        for t in c["theorems"]:
            f.write(f"#print axioms {t}\n")
with open(os.path.join(root, "lean/Verif.lean"), "w") as f:
    for m in mods + ["Axioms"]:
        f.write(f"import Verif.Props.{m}\n")
