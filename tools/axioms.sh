#!/bin/sh
# Prints the axioms each theorem named in MANIFEST.json depends on (run after lake build).
cd "$(dirname "$0")/../lean" || exit 1
f=$(mktemp --suffix=.lean)
{ echo 'import Verif'; python3 -c "
import json
for c in json.load(open('../MANIFEST.json'))['claims']:
    for t in c['theorems']: print('#print axioms',t)"; } > "$f"
lake env lean "$f"
rm -f "$f"
