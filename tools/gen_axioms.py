#!/usr/bin/env python3
"""Write AXIOMS.md: the axioms every property theorem depends on (`#print axioms`), needs a finished build."""
import re,glob,subprocess,collections,os
names=[]
for f in sorted(glob.glob('/verif/lean/Verif/Props/*.lean')):
    ns=[]
    for l in open(f):
        m=re.match(r'namespace (\S+)',l)
        if m: ns.append(m.group(1))
        m=re.match(r'end (\S+)',l)
        if m and ns and ns[-1]==m.group(1): ns.pop()
        m=re.match(r'theorem (C\d\d_\S+)',l)
        if m: names.append('.'.join(ns+[m.group(1)]))
t='import Verif\n'+''.join(f'#print axioms {n}\n' for n in names)
open('/tmp/ax.lean','w').write(t)
o=subprocess.run(['lake','env','lean','/tmp/ax.lean'],cwd='/verif/lean',capture_output=True,text=True).stdout
by=collections.OrderedDict()
for m in re.finditer(r"'([^']+)' (does not depend on any axioms|depends on axioms: \[([^\]]*)\])",o):
    ax=', '.join(sorted(x.strip() for x in (m.group(3) or '').split(','))) or 'none'
    by.setdefault(ax,[]).append(m.group(1).split('.')[-1])
n=sum(map(len,by.values()))
out=['# Axioms','',f'Generated by `tools/gen_axioms.py` from `#print axioms`: {n} property theorems, grouped by the axioms they depend on.']
for ax in sorted(by): out+=['',f'## {ax}','',', '.join(f'`{x}`' for x in sorted(by[ax]))]
open('/verif/AXIOMS.md','w').write('\n'.join(out)+'\n')
print(len(names),n,{k:len(v) for k,v in by.items()})
