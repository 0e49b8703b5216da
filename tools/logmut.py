#!/usr/bin/env python3
"""append runner output (out.jsonl) to /verif/seeded/LOG.jsonl; optional notes.json maps 'definition|edit' to {tightened, note}"""
import json,sys
notes=json.load(open(sys.argv[2])) if len(sys.argv)>2 else {}
with open('/verif/seeded/LOG.jsonl','a') as o:
    for l in open(sys.argv[1]):
        r=json.loads(l); k=r['definition']+'|'+r['edit']; n=notes.get(k,{})
        o.write(json.dumps({'definition':r['definition'],'file':r['file'],'edit':r['edit'],'claim_broken':r['claim'],
          'theorems_failed':[f'{f}:{t}' for f,ts in r['failed'].items() for t in ts],
          'modules_blocked_by_failed_lemmas':r['blocked'],'theorems_tightened':n.get('tightened',[]),**({'note':n['note']} if 'note' in n else {})},ensure_ascii=False)+'\n')
