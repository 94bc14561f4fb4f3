#!/usr/bin/env python3
"""Set one entry of MANIFEST.json: manifest.py C01 proved 'note' thm1 thm2 ..."""
import json, os, sys
p = os.path.join(os.path.dirname(__file__), '..', 'MANIFEST.json')
m = json.load(open(p)) if os.path.exists(p) else {"claims": []}
prop, status, note, thms = sys.argv[1], sys.argv[2], sys.argv[3], sys.argv[4:]
thms = ['Egg.' + t if not t.startswith('Egg.') else t for t in thms]
m["claims"] = [c for c in m["claims"] if c["property"] != prop]
m["claims"].append({"property": prop, "status": status, "theorems": thms, "note": note})
m["claims"].sort(key=lambda c: c["property"])
json.dump(m, open(p, 'w'), indent=1)
open(p, 'a').write("\n")
