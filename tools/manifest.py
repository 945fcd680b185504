#!/usr/bin/env python3
"""Regenerate MANIFEST.json from the theorem names in lean/Verif/Props (names start with the property id)."""
import re,glob,json,os
root=os.path.dirname(os.path.dirname(os.path.abspath(__file__)))
thms={}
for f in sorted(glob.glob(root+'/lean/Verif/Props/*.lean')):
    s=open(f).read()
    for m in re.finditer(r'^theorem (C\d\d+)(_[^\s:({\[]*)',s,re.M):
        thms.setdefault(m.group(1),[]).append('LA.Props.'+m.group(1)+m.group(2))
ids=[json.loads(l)['id'] for l in open(root+'/properties.jsonl')]
notes=json.load(open(root+'/tools/notes.json'))
claims=[]
for i in ids:
    n=notes.get(i,{})
    if i not in thms and 'status' not in n: continue
    claims.append({'property':i,'status':n.get('status','proved'),'theorems':thms.get(i,[]),'note':n.get('note','')})
json.dump({'claims':claims},open(root+'/MANIFEST.json','w'),indent=1,ensure_ascii=False)
print(len(claims),'claims;',sum(len(c['theorems']) for c in claims),'theorems; missing:',[i for i in ids if i not in thms])
