#!/usr/bin/env python3
"""Mutation test: tools/mutate.py FILE 'old' 'new' DEFN 'claim broken' [tightened]
Copies lean/ to a scratch directory, applies one textual edit to a model file,
rebuilds, and appends (EXTRA: json list of further [file, old, new] edits) the outcome to seeded/LOG.jsonl."""
import sys, os, re, json, shutil, subprocess
file, old, new, defn, claim = sys.argv[1:6]
tight = sys.argv[6:] 
S='/tmp/mut/lean'
os.makedirs('/tmp/mut',exist_ok=True)
subprocess.run(['rsync','-a','--delete','/verif/lean/',S+'/'],check=False) if shutil.which('rsync') else (shutil.rmtree(S,ignore_errors=True), shutil.copytree('/verif/lean',S,symlinks=True))
p=os.path.join(S,file)
t=open(p).read()
if t.count(old)<1: sys.exit('pattern not found')
if t.count(old)>1: print('warning: pattern occurs',t.count(old),'times; replacing first')
open(p,'w').write(t.replace(old,new,1))
extra=json.loads(os.environ.get('EXTRA','[]'))
for f2,o2,n2 in extra:
    p2=os.path.join(S,f2); t2=open(p2).read()
    if o2 not in t2: sys.exit('extra pattern not found')
    open(p2,'w').write(t2.replace(o2,n2,1))
d=os.path.dirname(file)
targets=[(d+'/'+x[:-5]).replace('/','.') for x in sorted(os.listdir(os.path.join(S,d))) if x.endswith('.lean')]
targets+=os.environ.get('ALSO','').split()
r=subprocess.run(['lake','build',*targets],cwd=S,capture_output=True,text=True)
out=r.stdout+r.stderr
failed=[]
for m in re.finditer(r'error: (Verif/\S+?\.lean):(\d+):',out):
    f,l=m.group(1),int(m.group(2))
    lines=open(os.path.join(S,f)).read().split('\n')[:l]
    ns=[]
    name=None
    for x in lines:
        mm=re.match(r'namespace (\S+)',x)
        if mm: ns=[mm.group(1)]
        mm=re.match(r'(?:private |protected |@\[[^\]]*\] )*(theorem|lemma|def|example|instance)\s*(\S*)',x)
        if mm: name=mm.group(1)+' ' + '.'.join(ns+[mm.group(2)]) if mm.group(1)!='theorem' else '.'.join(ns+[mm.group(2)])
    if name and name not in failed: failed.append(name)
print('exit',r.returncode,'failed:',failed)
if r.returncode!=0 and not failed: print(out[-2000:])
rec=dict(definition=defn,file=file,edit=f'{old} -> {new}'+''.join(f'; in {a}: {b} -> {c}' for a,b,c in extra),claim_broken=claim,theorems_failed=failed,theorems_tightened=tight)
if os.environ.get('DRY')!='1':
    open('/verif/seeded/LOG.jsonl','a').write(json.dumps(rec)+'\n')
