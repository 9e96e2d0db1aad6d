#!/bin/sh
# List the axioms of every theorem named in MANIFEST.json.
cd /verif/lean && python3 - <<'P' > /tmp/axioms.lean
import json, re, glob
names = {t for c in json.load(open('/verif/MANIFEST.json'))['claims'] for t in c['theorems']}
print('import Verif')
for t in sorted(names): print('#print axioms ' + t)
P
lake env lean /tmp/axioms.lean | tr '\n' ' ' | sed "s/ '/\n'/g" | tr -s ' ' > /verif/AXIOMS.txt
