#!/usr/bin/env python3
"""Rebuild MANIFEST.json from the theorem names in lean/Verif/Props (prefix Cnn_)."""
import re,glob,json,os
root=os.path.dirname(os.path.dirname(os.path.abspath(__file__)))
thms={}
for f in sorted(glob.glob(root+'/lean/Verif/Props/*.lean')):
    for l in open(f):
        m=re.match(r'(?:@\[.*?\]\s*)?(?:private )?theorem (C\d\d)_(\S+)',l)
        if m: thms.setdefault(m.group(1),[]).append('SymRust.'+m.group(1)+'_'+m.group(2))
notes=json.load(open(root+'/tools/notes.json'))
claims=[]
for l in open(root+'/properties.jsonl'):
    c=json.loads(l)['id']
    t=thms.get(c,[])
    st=notes.get(c,{}).get('status') or ('proved' if t else None)
    if st is None: continue
    claims.append({"property":c,"status":st,"theorems":t,"note":notes.get(c,{}).get('note','')})
json.dump({"claims":claims},open(root+'/MANIFEST.json','w'),indent=1,ensure_ascii=False)
print(len(claims),[c['property'] for c in claims if c['status']!='proved'])
