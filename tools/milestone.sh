#!/bin/sh
# usage: milestone.sh "commit message"
cd /verif || exit 1
python3 tools/mk_manifest.py && git add -A && git commit -qm "$1" && vcheck | tail -1
