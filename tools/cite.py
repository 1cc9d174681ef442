#!/usr/bin/env python3
"""Fill in line ranges of citations in the Lean model.
A citation is written  file.rs:<range> `Item`  or  file.rs:<range> `Type::method`;
this script looks the item up in /repo/src and rewrites <range>.  Unknown items are reported."""
import re,glob,os,sys
src={}
for f in glob.glob('/repo/src/**/*.rs',recursive=True):
    rel=os.path.relpath(f,'/repo/src')
    src[rel]=open(f).read().split('\n')
byname={}
for rel in src: byname.setdefault(os.path.basename(rel),[]).append(rel)
def end_of(lines,i):
    depth=0;started=False
    for j in range(i,len(lines)):
        l=re.sub(r'"(\\.|[^"\\])*"','',lines[j]); l=re.sub(r"//.*",'',l)
        for c in l:
            if c=='{': depth+=1;started=True
            elif c=='}': depth-=1
            elif c==';' and not started and depth==0: return j
        if started and depth==0: return j
    return i
def find(rel,item):
    lines=src[rel]
    # stop at test module
    lim=len(lines)
    for i,l in enumerate(lines):
        if l.startswith('mod test'): lim=i;break
    if '::' in item:
        ty,m=item.split('::')
        for i in range(lim):
            if re.match(r'\s*(unsafe )?impl\b.*\b'+ty+r'\b',lines[i]) :
                e=end_of(lines,i)
                for j in range(i,e+1):
                    if re.search(r'\bfn '+m+r'\b',lines[j]): return j,end_of(lines,j)
        return None
    for i in range(lim):
        if re.search(r'\b(fn|struct|enum|trait|const|type|mod) '+item+r'\b',lines[i]):
            return i,end_of(lines,i)
    m=re.match(r'impl (.*)',item)
    if m:
        for i in range(lim):
            if re.search(re.escape(item)+r"\b",re.sub(r"impl<[^>]*>","impl",lines[i])): return i,end_of(lines,i)
    return None
bad=0
for f in glob.glob('/verif/lean/Verif/**/*.lean',recursive=True):
    t=open(f).read()
    def rep(m):
        global bad
        fn,item=m.group(1),m.group(3)
        base=os.path.basename(fn)
        rels=[fn] if fn in src else byname.get(base,[])
        for rel in rels:
            r=find(rel,item)
            if r: return f"{fn}:{r[0]+1}-{r[1]+1} `{item}`" if r[0]!=r[1] else f"{fn}:{r[0]+1} `{item}`"
        bad+=1; print('unknown',f,fn,item); return m.group(0)
    n=re.sub(r'([\w/]+\.rs):(\d+(?:-\d+)?) `([\w:]+|impl [^`]*)`',rep,t)
    if n!=t: open(f,'w').write(n)
    for m in re.finditer(r'([\w/]+\.rs):(\d+)(?:-(\d+))?',n):
        base=os.path.basename(m.group(1)); rels=[m.group(1)] if m.group(1) in src else byname.get(base,[])
        if not rels: print('nofile',f,m.group(0)); bad+=1; continue
        L=len(src[rels[0]])
        if int(m.group(3) or m.group(2))>L: print('out of range',f,m.group(0)); bad+=1
sys.exit(1 if bad else 0)
