#!/usr/bin/env python3
"""Usage: upd.py FILE.py  where FILE.py defines PROPS=[(id,title,statement,quantifier,why,anchors)...],
CLAIMS=[(id,status,[theorems],note)...] and SEEDED=[(definition,edit,claim,[failed],[tightened])...]. Adds or replaces the entries."""
import json,sys,runpy,os
ROOT=os.path.dirname(os.path.dirname(os.path.abspath(__file__)))
g=runpy.run_path(sys.argv[1])
pf=os.path.join(ROOT,'properties.jsonl'); mf=os.path.join(ROOT,'MANIFEST.json')
props={}
for l in open(pf):
    if l.strip():
        d=json.loads(l); props[d['id']]=d
for (i,t,s,q,w,a) in g.get('PROPS',[]):
    props[i]=dict(id=i,title=t,statement=s,quantifier=q,why_tests_cant=w,anchors=a)
with open(pf,'w') as f:
    for k in sorted(props,key=lambda k:int(k[1:])): f.write(json.dumps(props[k])+'\n')
m={'claims':[]}
if os.path.exists(mf): m=json.load(open(mf))
c={x['property']:x for x in m['claims']}
for (i,st,th,n) in g.get('CLAIMS',[]):
    c[i]=dict(property=i,status=st,theorems=th,note=n)
m['claims']=[c[k] for k in sorted(c,key=lambda k:int(k[1:]))]
json.dump(m,open(mf,'w'),indent=1)
with open(os.path.join(ROOT,'seeded/LOG.jsonl'),'a') as f:
    for (d,e,cl,fa,ti) in g.get('SEEDED',[]):
        f.write(json.dumps(dict(definition=d,edit=e,claim=cl,failed=fa,tightened=ti))+'\n')
