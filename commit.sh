#!/bin/sh
# Regenerate Verif.lean and MANIFEST.json, build, commit.
cd /verif/lean && for d in Props Proofs; do for f in Verif/$d/*.lean; do echo "import Verif.$d.$(basename $f .lean)"; done; done > Verif.lean
lake build 2>&1 | grep -E "error|completed" | head -5
cd /verif && python3 mkmanifest.py && git add -A && git commit -qm "$1" && git log --oneline | head -1
