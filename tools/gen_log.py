"""Turn the results of the mutation harness (a scratch file, JSON lines) into seeded/LOG.jsonl lines on stdout."""
import json, re, sys
for path in sys.argv[1:]:
    for l in open(path):
        d = json.loads(l)
        ids = re.findall(r'C\d\d', d['claim'])
        rel = [t for t in d['claims_failed'] if t[:3] in ids] or d['claims_failed'][:6]
        short = lambda n: n.replace('Verif.Proof.', '').replace('Verif.Props.', '').replace('Verif.', '') if not n.startswith('Verif/') else n
        rec = {"id": d['id'], "definition": d['definition'], "edit": d['edit'], "claim": d['claim'],
               "build": "passes" if d['built'] else "fails",
               "failed_first": [short(n) for n in d['first_failures']],
               "claim_theorems_failed": rel, "n_claim_theorems_failed": len(d['claims_failed']),
               "tightened": d.get('tightened', [])}
        if 'note' in d: rec['note'] = d['note']
        print(json.dumps(rec, ensure_ascii=False))
