#!/usr/bin/env python3
"""Mutation tests. Usage: mutate.py FILE.py, where FILE.py defines
MUT=[(comp, old, new, definition, edit, claim)...]; comp is a '+'-separated list of components (directories of lean/Verif), the
first one being mutated (in its Model.lean unless 'Comp/File' is given).  The modules of the components are concatenated into one scratch file (outside /verif), `old` is
replaced by `new` in the mutated module, the file is elaborated and the axioms of every manifest theorem are printed: a theorem
whose proof broke depends on the axiom of unfinished proofs or is unknown.  Results are appended to seeded/LOG.jsonl with -w."""
import sys,re,os,json,subprocess,runpy
from concurrent.futures import ThreadPoolExecutor
ROOT='/verif'; L=ROOT+'/lean'
ORDER=sorted({f[:-5] for c in os.listdir(L+'/Verif') if os.path.isdir(L+'/Verif/'+c) for f in os.listdir(L+'/Verif/'+c) if f.endswith('.lean')})
man=json.load(open(ROOT+'/MANIFEST.json'))
thms=[(t,c['property']) for c in man['claims'] for t in c['theorems']]
def run(k,m):
    comp,old,new,defn,edit,claim=m
    comps=comp.split('+'); cf=comps[0].split('/'); comps[0]=cf[0]; tgt=cf[1] if len(cf)>1 else 'Model'
    imports=[];body=[];hit=0;mods=set()
    for c in comps:
        for f in ORDER:
            p=f'{L}/Verif/{c}/{f}.lean'
            if os.path.exists(p): mods.add(f'Verif.{c}.{f}')
    def dep(mod,seen):
        if mod in seen: return
        for l in open(f"{L}/{mod.replace('.','/')}.lean"):
            if l.startswith('import Verif'):
                d=l.split()[1]
                if d in mods: dep(d,seen)
        seen.append(mod)
    seq=[]
    for c in comps:
        for f in ORDER:
            if f'Verif.{c}.{f}' in mods: dep(f'Verif.{c}.{f}',seq)
    for mod in seq:
        t=open(f"{L}/{mod.replace('.','/')}.lean").read()
        if mod==f'Verif.{comps[0]}.{tgt}':
            hit=t.count(old)
            if hit!=1: return (k,m,'PATTERN %d'%hit,[],[])
            t=t.replace(old,new)
        for l in t.split('\n'):
            if l.startswith('import '):
                if l.split()[1] not in mods: imports.append(l)
        body.append('\n'.join(l for l in t.split('\n') if not l.startswith('import ')))
    if hit!=1: return (k,m,'PATTERN no module',[],[])
    names=[t for t,_ in thms if t.split('.')[1] in comps]
    src='\n'.join(sorted(set(imports)))+'\n'+'\n'.join(body)+'\n'+'\n'.join(f'#print axioms {n}' for n in names)
    fn=f'/tmp/scratch/mut_{k}.lean'; open(fn,'w').write(src)
    r=subprocess.run(['lake','env','lean',fn],cwd=L,capture_output=True,text=True,timeout=3000)
    out=r.stdout+r.stderr
    ok=set();bad=set()
    for n in names:
        mm=re.search(r"'"+re.escape(n)+r"' (does not depend on any axioms|depends on axioms: \[([^\]]*)\])",out)
        if mm and 'sorryAx' not in (mm.group(2) or ''): ok.add(n)
        else: bad.add(n)
    nerr=out.count('error:')
    return (k,m,'errors %d'%nerr,sorted(bad),sorted(ok))
g=runpy.run_path(sys.argv[1]); MUT=g['MUT']; base=g.get('BASE','m')
with ThreadPoolExecutor(4) as ex: res=list(ex.map(lambda a:run(f'{base}{a[0]}',a[1]),enumerate(MUT)))
for k,m,st,bad,ok in res:
    print(k,m[3],'|',m[4],'|',m[5],'|',st)
    print('   FAILED:',', '.join(b.replace('Thot.','') for b in bad) or '*** NONE ***')
    if '-v' in sys.argv: print('   ok    :',', '.join(b.replace('Thot.','') for b in ok))
    pid=m[5].split()[0].rstrip(':')
    if not any(b.split('.')[-1].startswith(pid) for b in bad): print('   !!! claim',pid,'still proved')
if '-w' in sys.argv:
    with open(ROOT+'/seeded/LOG.jsonl','a') as f:
        for k,m,st,bad,ok in res:
            if st.startswith('PATTERN'): continue
            f.write(json.dumps(dict(definition=m[3],edit=m[4],claim=m[5],failed=bad,tightened=g.get('TIGHT',{}).get(k,[])))+'\n')
