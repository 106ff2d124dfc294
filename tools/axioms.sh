#!/bin/sh
# Prints the axioms of every theorem named in MANIFEST.json (run after `lake build`).
cd "$(dirname "$0")/../lean"
python3 - > /tmp/axioms_check.lean <<'PY'
import json
m = json.load(open("../MANIFEST.json"))
print("import Verif")
for c in m["claims"]:
    for t in c["theorems"]:
        print("#print axioms", t)
PY
lake env lean /tmp/axioms_check.lean
