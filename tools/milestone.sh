#!/bin/bash
# build, manifest, commit, vcheck
cd /verif/lean && lake build > /tmp/ms.build 2>&1 || { grep -E "error" /tmp/ms.build | head -20; echo BUILD FAILED; exit 1; }
cd /verif && python3 tools/mkmanifest.py && rm -f lean/lake-manifest.json && git add -A && git commit -qm "$1" && vcheck
