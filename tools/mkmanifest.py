#!/usr/bin/env python3
"""Regenerates MANIFEST.json from the theorem names in lean/Verif/Props (prefix Cxx_) and the notes in tools/notes.json."""
import json,re,glob,os
root=os.path.dirname(os.path.dirname(os.path.abspath(__file__)))
ids=[json.loads(l)['id'] for l in open(root+'/properties.jsonl') if l.strip()]
th={}
for f in sorted(glob.glob(root+'/lean/Verif/Props/*.lean')):
    for m in re.finditer(r'^theorem (C\d\d\d?_[A-Za-z0-9_\']+)',open(f).read(),re.M):
        n=m.group(1); th.setdefault(n.split('_')[0],[]).append('Verif.'+n)
notes=json.load(open(root+'/tools/notes.json')) if os.path.exists(root+'/tools/notes.json') else {}
claims=[]
for i in ids:
    n=notes.get(i,{})
    t=th.get(i,[])
    status=n.get('status') or ('proved' if t and not any(x.endswith('_partial') for x in t) else 'partial')
    if not t and status!='not_applicable':
        continue
    claims.append({'property':i,'status':status,'theorems':t,'note':n.get('note','')})
json.dump({'claims':claims},open(root+'/MANIFEST.json','w'),indent=1)
print(len(claims),'claims',sum(len(c['theorems']) for c in claims),'theorems; missing:',[i for i in ids if i not in {c['property'] for c in claims}])
