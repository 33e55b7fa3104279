#!/usr/bin/env python3
"""Regenerate MANIFEST.json: theorems named Cxx_* under lean/Verif/Props, statuses/notes from tools/status.json."""
import re,glob,json,os
root=os.path.dirname(os.path.dirname(os.path.abspath(__file__)))
th={}
for f in sorted(glob.glob(root+'/lean/Verif/Props/*.lean')):
    ns=[]
    for line in open(f):
        m=re.match(r'namespace (\S+)',line)
        if m: ns.append(m.group(1))
        m=re.match(r'end (\S+)',line)
        if m and ns and ns[-1]==m.group(1): ns.pop()
        m=re.match(r'(?:private )?theorem (C(\d+)_\w+\'?)',line)
        if m: th.setdefault('C'+m.group(2),[]).append('.'.join(ns+[m.group(1)]))
st=json.load(open(root+'/tools/status.json'))
claims=[]
for line in open(root+'/properties.jsonl'):
    pid=json.loads(line)['id']
    t=th.get(pid,[])
    s=st.get(pid,{})
    if not t and not s: continue
    claims.append({"property":pid,"status":s.get("status","proved"),"theorems":t,"note":s.get("note","")})
json.dump({"claims":claims},open(root+'/MANIFEST.json','w'),indent=1)
print(len(claims),'claims',sum(len(c['theorems']) for c in claims),'theorems')
