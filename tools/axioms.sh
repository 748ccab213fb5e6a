#!/bin/sh
# Prints the axioms of every theorem in MANIFEST.json that are not among the three standard ones.
cd "$(dirname "$0")/../lean" && t=$(mktemp -d) && { echo "import Verif"; python3 - <<'P'
import json
for c in json.load(open('../MANIFEST.json'))['claims']:
    for t in c['theorems']: print(f"#print axioms {t}")
P
} > $t/A.lean && lake env lean $t/A.lean | tr '\n' ' ' | sed 's/\] /]\n/g' | sed 's/\(propext\|Classical.choice\|Quot.sound\)//g' | grep '[a-z]' | grep -v 'depends on axioms: \[[, ]*\]' | grep -v "does not depend"
