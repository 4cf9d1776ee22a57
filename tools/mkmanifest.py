#!/usr/bin/env python3
"""Collects the theorems named C<nn>_... in lean/Verif/Props into MANIFEST.json."""
import json, os, re
root=os.path.join(os.path.dirname(os.path.abspath(__file__)),'..')
status=json.load(open(os.path.join(root,'tools','status.json')))
th={}
for fn in sorted(os.listdir(os.path.join(root,'lean/Verif/Props'))):
    for m in re.finditer(r'^theorem (C\d\d+)(_\w*)',open(os.path.join(root,'lean/Verif/Props',fn)).read(),re.M):
        th.setdefault(m.group(1),[]).append('Comch.Props.'+m.group(1)+m.group(2))
ids=[json.loads(l)['id'] for l in open(os.path.join(root,'properties.jsonl'))]
claims=[]
for i in ids:
    if i in th:
        st=status.get(i,{})
        claims.append(dict(property=i,status=st.get('status','proved'),theorems=th[i],note=st.get('note','')))
    else: print('no theorem for',i)
json.dump({'claims':claims},open(os.path.join(root,'MANIFEST.json'),'w'),indent=1)
print(len(claims),'claims',sum(len(c['theorems']) for c in claims),'theorems')
