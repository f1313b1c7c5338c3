#!/usr/bin/env python3
# collects the theorems named Cnn_* from lean/Verif/Props, checks them against notes, writes MANIFEST.json
import re,json,glob,os
V='/verif'
thms={}
for f in sorted(glob.glob(V+'/lean/Verif/Props/*.lean')):
    s=open(f).read()
    for m in re.finditer(r'^theorem (C\d\d)(_\w+)',s,re.M):
        thms.setdefault(m.group(1),[]).append('Libmorph.'+m.group(1)+m.group(2))
notes=json.load(open(V+'/tools/notes.json')) if os.path.exists(V+'/tools/notes.json') else {}
claims=[]
for l in open(V+'/properties.jsonl'):
    i=json.loads(l)['id']
    t=thms.get(i,[])
    n=notes.get(i,{})
    if not t and not n: continue
    st=n.get('status') or ('partial' if any(x.endswith('_partial') for x in t) else 'proved')
    claims.append({"property":i,"status":st,"theorems":t,"note":n.get('note','')})
json.dump({"claims":claims},open(V+'/MANIFEST.json','w'),indent=1,ensure_ascii=False)
print(len(claims),'claims',sum(len(c['theorems']) for c in claims),'theorems')
