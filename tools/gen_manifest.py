#!/usr/bin/env python3
"""Write MANIFEST.json: collects theorems named Cnn_* from lean/Verif/Props; statuses and notes below."""
import re, json, glob, collections
NOTES = json.load(open('/verif/tools/notes.json'))
ths = collections.defaultdict(list)
for p in sorted(glob.glob('/verif/lean/Verif/Props/*.lean')):
    for m in re.finditer(r'^theorem ((C\d+)_\S+)', open(p).read(), re.M):
        ths[m.group(2)].append('Verif.Props.' + m.group(1))
claims = []
for l in open('/verif/properties.jsonl'):
    i = json.loads(l)['id']
    n = NOTES.get(i, {})
    if not ths[i] and n.get('status') != 'not_applicable':
        claims.append({'property': i, 'status': 'partial', 'theorems': [], 'note': 'not yet proved'})
        continue
    claims.append({'property': i, 'status': n.get('status', 'proved'), 'theorems': ths[i], 'note': n.get('note', '')})
json.dump({'claims': claims}, open('/verif/MANIFEST.json', 'w'), indent=1)
print({c['property']: (c['status'], len(c['theorems'])) for c in claims})
