#!/usr/bin/env python3
"""Writes MANIFEST.json from the table below and checks that the theorem names occur in the sources."""
import json,re,glob,os
R=os.path.dirname(os.path.dirname(os.path.abspath(__file__)))
C=[]
def c(p,st,th,note=""): C.append(dict(property=p,status=st,theorems=th.split(),note=note))
exec(open(os.path.join(R,'tools','claims.py')).read())
names=set()
for f in glob.glob(R+'/lean/Verif/**/*.lean',recursive=True):
    ns=[]
    for x in open(f):
        m=re.match(r'namespace (\S+)',x)
        if m: ns.append(m.group(1))
        m=re.match(r'end (\S+)',x)
        if m and ns and ns[-1]==m.group(1): ns.pop()
        m=re.match(r'(?:@\[[^\]]*\] )*theorem (\S+)',x)
        if m: names.add('.'.join(ns+[m.group(1)]))
for e in C:
    for t in e['theorems']:
        if t not in names: print('MISSING',e['property'],t)
props=[json.loads(l)['id'] for l in open(R+'/properties.jsonl')]
for q in props:
    if q not in [e['property'] for e in C]: print('no claim for',q)
C.sort(key=lambda e:e['property'])
json.dump({"claims":C},open(R+'/MANIFEST.json','w'),indent=1)
