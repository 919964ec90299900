#!/usr/bin/env python3
"""Append to seeded/LOG.jsonl the results of tools/mutate.py (/tmp/mut/ID.json) that are not in it yet.
usage: tools/log.py [--tightened THEOREM ...] [id ...]"""
import json,glob,sys,os
args=sys.argv[1:]; tight=[]
if '--tightened' in args:
    i=args.index('--tightened'); tight=[args[i+1]]; args=args[:i]+args[i+2:]
L='/verif/seeded/LOG.jsonl'
have=[json.loads(l) for l in open(L)]
known={json.dumps(h,sort_keys=True) for h in have}
out=open(L,'a'); n=0
for f in sorted(glob.glob('/tmp/mut/*.json')):
    if os.path.getsize(f)==0: continue
    d=json.load(open(f))
    if args and d['id'] not in args: continue
    if d.get('error'): print('skip',d['id'],d['error']); continue
    d['failed']+=[t for t in d.get('failed_directly',[]) if t[:1]=='C' and t[1:3].isdigit() and t not in d['failed']]
    d['survived_although_expected']=[b for b in d['survived_although_expected'] if not any(t.startswith(b+'_') for t in d['failed'])]
    e=dict(id=d['id'],definition=d['definition'],edit=d['edit'],claim=d['claim'],breaks=d['breaks'],
           theorems_failed=d['failed'],survived=d['survived_although_expected'],theorems_tightened=tight)
    if json.dumps(e,sort_keys=True) in known: continue
    out.write(json.dumps(e)+'\n'); n+=1
print(n,'lines added')
