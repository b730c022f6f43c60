#!/bin/sh
# Compiles the Lean model over Float in a scratch directory and compares it with the reference
# values of the repository's tests.  Usage: run.sh [data set ...], see compare.py.
# Nothing in the Lake project depends on this directory.
set -e
here=$(cd "$(dirname "$0")" && pwd)
dir=${CONFORMANCE_DIR:-/tmp/conformance}
mkdir -p "$dir"
{
  echo "import Lean.Data.Json"
  cat "$here/shim.txt"
  for f in Py Model/Tau Model/Convert Model/Dev Model/Mtie Model/Ci Model/Realtime Model/Gradev \
           Model/Mask Model/Api Model/Hat; do
    grep -v '^import' "$here/../lean/Verif/$f.lean" | sed 's/noncomputable //g'
  done
  cat "$here/main.txt"
} > "$dir/All.lean"
cd "$dir"
lean -c All.c All.lean
leanc -O2 -o conf All.c
python3 "$here/compare.py" ${*:-nbs10 nbs1000 masks phasedat ci phid}
