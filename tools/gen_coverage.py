#!/usr/bin/env python3
"""Write COVERAGE.md: every function of /repo/src (outside tests) and the Lean definitions whose comment cites lines of it;
functions cited by nobody are listed with the reason given in NOT."""
import re,glob,os
NOT={
 # file, fn -> reason
}
exec(open(os.path.join(os.path.dirname(__file__),'not_modelled.py')).read())
def end_of(lines,i):
    depth=0;started=False
    for j in range(i,len(lines)):
        l=re.sub(r'"(\\.|[^"\\])*"','',lines[j]); l=re.sub(r"//.*",'',l)
        for c in l:
            if c=='{': depth+=1;started=True
            elif c=='}': depth-=1
            elif c==';' and not started and depth==0: return j
        if started and depth==0: return j
    return i
fns=[]
for f in sorted(glob.glob('/repo/src/**/*.rs',recursive=True)):
    rel=os.path.relpath(f,'/repo/src'); L=open(f).read().split('\n')
    lim=len(L)
    for i,l in enumerate(L):
        if re.match(r'\s*#\[cfg\(test\)\]',l) and any(re.match(r'\s*(pub )?mod ',x) for x in L[i+1:i+3]): lim=i;break
    impl='' ; implend=-1; skip=-1
    for i in range(lim):
        if i<=skip: continue
        if re.match(r'\s*#\[cfg\(test\)\]',L[i]) and re.match(r'\s*(pub(\([a-z]+\))? )?(async )?(impl|mod|fn|use)\b',L[i+1]):
            skip=end_of(L,i+1); continue
        m=re.match(r'\s*(?:unsafe )?impl(?:<[^{]*?>)?\s+(.*?)\s*(?:\{|where|$)',L[i])
        if m and not re.search(r'\bfn\b',L[i]): impl=re.sub(r'<.*','',m.group(1).split(' for ')[-1]) + ('' if ' for ' not in m.group(1) else ' as '+re.sub(r'<.*','',m.group(1).split(' for ')[0])); implend=end_of(L,i)
        m=re.match(r'\s*(?:pub(?:\([a-z]+\))? )?trait (\w+)',L[i])
        if m: impl='trait '+m.group(1); implend=end_of(L,i)
        m=re.search(r'\bfn (\w+)',L[i])
        if m and not L[i].strip().startswith('//'):
            fns.append((rel,m.group(1),impl if i<=implend else '',i+1,end_of(L,i)+1))
# citations: split lean files into comment + following definition
cites=[]
for f in sorted(glob.glob('/verif/lean/Verif/Model/*.lean')):
    t=open(f).read()
    for m in re.finditer(r'/--(.*?)-/\s*(?:@\[[^\]]*\]\s*)?(?:noncomputable |private |protected )*(?:def|structure|inductive|abbrev|class|instance)\s+([^\s:({\[]+)',t,re.S):
        for c in re.finditer(r'([\w/]+\.rs):((?:\d+(?:-\d+)?(?:,\s*)?)+)',m.group(1)):
            for r in re.findall(r'(\d+)(?:-(\d+))?',c.group(2)):
                a=int(r[0]); b=int(r[1] or r[0]); cites.append((c.group(1),a,b,m.group(2),os.path.basename(f)[:-5]))
out=['# What is modelled','','Generated by `tools/gen_coverage.py`: every function of `/repo/src` outside tests, its lines, and the definitions of `lean/Verif/Model` whose comment cites',
 'lines in it (deepest citations first, at most six). Functions that no definition models are listed with the reason.','']
cur=None; nm=0; un=[]
for rel,fn,impl,a,b in fns:
    if rel!=cur:
        out+=['',f'## `{rel}`','','| function | lines | model |','|---|---|---|']; cur=rel
    hit=[]
    for (cf,ca,cb,d,mod) in cites:
        if (rel==cf or rel.endswith('/'+cf)) and ca<=b and cb>=a:
            hit.append((-(min(b,cb)-max(a,ca)+1)/max(1,(cb-ca+1)),f'`{mod}.{d}`'))
    names=[]
    for s,n in sorted(hit):
        if n not in names: names.append(n)
    key=(rel,fn) if (rel,fn) in NOT else (rel,impl+'::'+fn) if (rel,impl+'::'+fn) in NOT else (rel,'*') if (rel,'*') in NOT and not names else None
    if key and not names: txt=('*not modelled*: ' if 'inlined' not in NOT[key] else '')+NOT[key]
    elif names: nm+=1; txt=', '.join(names[:6])
    else: txt='?'; un.append((rel,impl,fn,a,b))
    out.append(f'| {("`"+impl+"::`") if impl else ""}`{fn}` | {a}-{b} | {txt} |'.replace('`::``','::').replace('::``','::'))
open('/verif/COVERAGE.md','w').write('\n'.join(out)+'\n')
print(len(fns),'functions',nm,'modelled;', 'unexplained:'); [print(' ',u) for u in un]
