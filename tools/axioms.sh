#!/bin/sh
# Prints the axioms of every theorem in MANIFEST.json, grouped.
cd "$(dirname "$0")/../lean" || exit 1
f=$(mktemp /tmp/axioms_XXXX.lean)
{ echo 'import Verif'; python3 -c "
import json
for c in json.load(open('../MANIFEST.json'))['claims']:
    for t in c['theorems']: print('#print axioms', t)"; } > "$f"
lake env lean "$f" | sed 's/^[^ ]* //' | sort | uniq -c
rm -f "$f"
