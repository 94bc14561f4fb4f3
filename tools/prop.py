#!/usr/bin/env python3
"""Set fields of an entry of properties.jsonl: prop.py ID field=value ... (creates the entry)."""
import json, sys
P = 'properties.jsonl'
rows = [json.loads(l) for l in open(P) if l.strip()]
pid = sys.argv[1]
row = next((r for r in rows if r['id'] == pid), None)
if row is None:
    row = {'id': pid}
    rows.append(row)
for a in sys.argv[2:]:
    k, v = a.split('=', 1)
    row[k] = json.loads(v) if k == 'anchors' else v
for k in ('title', 'statement', 'quantifier', 'why_tests_cant', 'anchors'):
    assert k in row, k
with open(P, 'w') as f:
    for r in rows:
        f.write(json.dumps(r, ensure_ascii=False) + '\n')
