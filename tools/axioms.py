#!/usr/bin/env python3
"""Print the axioms of every theorem named in MANIFEST.json into AXIOMS.txt (needs a finished build)."""
import json,subprocess,re
m=json.load(open('/verif/MANIFEST.json'))
names=[t for c in m['claims'] for t in c['theorems']]
src='import Verif\n'+'\n'.join('#print axioms %s'%n for n in names)
open('/tmp/ax.lean','w').write(src)
out=subprocess.run(['lake','env','lean','/tmp/ax.lean'],cwd='/verif/lean',capture_output=True,text=True).stdout
out=re.sub(r',\n\s+',', ',out)
groups={}
for l in out.splitlines():
    mm=re.match(r"'(.*)' (depends on axioms: \[(.*)\]|does not depend on any axioms)",l)
    if not mm: print('??',l); continue
    ax=', '.join(sorted((mm.group(3) or '').replace('\n',' ').split(', '))) or 'none'
    groups.setdefault(ax,[]).append(mm.group(1))
with open('/verif/AXIOMS.txt','w') as f:
    for ax in sorted(groups):
        f.write('Axioms: %s\n'%ax)
        for n in groups[ax]: f.write('  %s\n'%n)
print({a:len(v) for a,v in groups.items()}, len(names))
