#!/bin/sh
# Prints the axioms each theorem of MANIFEST.json depends on.
cd "$(dirname "$0")/../lean"
python3 -c "
import json
print('import Verif')
for c in json.load(open('../MANIFEST.json'))['claims']:
    for t in c['theorems']: print('#print axioms', t)
" > /tmp/axioms.lean && lake env lean /tmp/axioms.lean
