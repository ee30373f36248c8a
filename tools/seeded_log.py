"""Write seeded/LOG.jsonl from the results of the mutation runs."""
import json, sys
TIGHTENED = json.load(open('/tmp/mut/tightened.json'))
NOTE = json.load(open('/tmp/mut/notes.json'))
out = open('/verif/seeded/LOG.jsonl', 'w')
n = 0
for line in open('/tmp/mut/results.jsonl'):
    r = json.loads(line)
    d = dict(id=r['id'], definition=f"{r['file']}: {r['defn']}", edit=r['edit'], claim=r['claim'],
             failed=r['failed'], claims_lost=[t.removeprefix('OM.') for t in r['lost']],
             tightened=TIGHTENED.get(r['id'], []))
    if r.get('invalid'):
        d['failed'], d['claims_lost'] = [], []
        d['note'] = 'the edited definition does not compile, so nothing was tested'
    if r['id'] in NOTE:
        d['note'] = NOTE[r['id']]
    out.write(json.dumps(d, ensure_ascii=False) + '\n')
    n += 1
print(n)
