#!/bin/sh
# regenerate Verif.lean (imports of all modules) and MANIFEST.json, then build
cd /verif/lean && (cd . && find Verif -name '*.lean' | sort | sed 's|/|.|g;s|\.lean$||;s|^|import |') > Verif.lean
python3 /verif/tools/mkmanifest.py
cd /verif/lean && lake build 2>&1 | grep -v "linter\|Hint\|\[apply\]\|^$\|^⚠\|^ℹ\|^✔" | tail -${1:-40}
