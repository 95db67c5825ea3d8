#!/usr/bin/env python3
"""Append the results of a mutation run (lines of JSON) to seeded/LOG.jsonl.

usage: log_seeded.py RESULTS [OVERRIDES.json]
OVERRIDES maps "definition|edit" to extra keys (tightened, note)."""
import json, sys
over = json.load(open(sys.argv[2])) if len(sys.argv) > 2 else {}
out = open('/verif/seeded/LOG.jsonl', 'a')
for line in open(sys.argv[1]):
    if not line.startswith('{'):
        continue
    d = json.loads(line)
    if d['failed'] is None:
        continue
    e = {'definition': d['definition'], 'edit': d['edit'], 'claim': d['claim'],
         'failed': d['failed'], 'lemmas_broken': [b for b in d['broken'] if not b.startswith('example')],
         'tightened': []}
    e.update(over.get(d['definition'] + '|' + d['edit'], {}))
    out.write(json.dumps(e, ensure_ascii=False) + '\n')
