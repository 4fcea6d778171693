#!/bin/sh
# Prints the axioms of every theorem in MANIFEST.json.
cd "$(dirname "$0")/../lean" || exit 1
{ echo "import Verif"; python3 -c "
import json
for t in dict.fromkeys(t for c in json.load(open('../MANIFEST.json'))['claims'] for t in c['theorems']): print('#print axioms', t)"; } > /tmp/axioms.lean
lake env lean /tmp/axioms.lean
