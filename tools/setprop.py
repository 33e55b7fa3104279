#!/usr/bin/env python3
"""setprop.py ID field=value ... : edit one line of properties.jsonl (adds the line if new)."""
import json,sys
p='/verif/properties.jsonl'
rows=[json.loads(l) for l in open(p) if l.strip()]
i=sys.argv[1]
r=next((r for r in rows if r['id']==i),None)
if r is None:
    r={"id":i,"title":"","statement":"","quantifier":"","why_tests_cant":"","anchors":[]}; rows.append(r)
for a in sys.argv[2:]:
    k,v=a.split('=',1)
    r[k]=json.loads(v) if k=='anchors' else v
open(p,'w').write('\n'.join(json.dumps(r) for r in rows)+'\n')
