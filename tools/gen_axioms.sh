#!/bin/sh
# Lists the axioms of every theorem named in MANIFEST.json into axioms.txt.
# Run after `lake build`.
cd "$(dirname "$0")/../lean" || exit 1
f=$(mktemp --suffix=.lean)
python3 - > "$f" <<'PY'
import json
m = json.load(open('../MANIFEST.json'))
print('import Verif')
for c in m['claims']:
    for t in c['theorems']:
        print('#print axioms', t)
PY
lake env lean "$f" | tr '\n' ' ' | sed "s/ 'C/\n'C/g; s/ 'OpenSBLI/\n'OpenSBLI/g" | sed 's/ *$//; s/  */ /g' > ../axioms.txt
rm -f "$f"
echo >> ../axioms.txt
