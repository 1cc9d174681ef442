#!/usr/bin/env python3
"""Seeded-bug runner.  usage: mutate.py FILE.py   where FILE.py defines M = [(module path relative to
lean/Verif, old, new, definition, edit, claim), ...].  For every entry: copy the Lean project to a scratch
directory, apply the edit, rebuild, list the declarations whose proofs fail, print one JSON line."""
import sys,subprocess,shutil,os,re,json,runpy
SC=os.environ.get('SC','/tmp/scratch')
ms=runpy.run_path(sys.argv[1])['M']
if not os.path.exists(SC):
    shutil.copytree('/verif/lean',SC,symlinks=True)
else:
    shutil.rmtree(SC+'/Verif'); shutil.copytree('/verif/lean/Verif',SC+'/Verif')
    shutil.copy('/verif/lean/Verif.lean',SC+'/Verif.lean')
def decl(f,line):
    L=open(f).read().split('\n')
    for i in range(min(line,len(L))-1,-1,-1):
        m=re.match(r'\s*(?:@\[.*\]\s*)?(?:private )?(theorem|lemma|def|example|instance|abbrev)\b\s*(\S+)?',L[i])
        if m: return (m.group(2) if m.group(1)!='example' else 'example@%s:%d'%(os.path.basename(f),i+1))
    return '?'
for (mod,old,new,d,edit,claim) in ms:
    p=os.path.join(SC,'Verif',mod)
    src=open('/verif/lean/Verif/'+mod).read()
    if src.count(old)!=1:
        print('BAD',mod,old,src.count(old));continue
    open(p,'w').write(src.replace(old,new))
    r=subprocess.run(['lake','build'],cwd=SC,capture_output=True,text=True)
    out=r.stdout+r.stderr
    fails=[]
    for m in re.finditer(r'^error: (Verif/\S+\.lean):(\d+):',out,re.M):
        n=decl(os.path.join(SC,m.group(1)),int(m.group(2)))
        if n not in fails: fails.append(n)
    open(p,'w').write(src)
    rec={"definition":d,"edit":edit,"claim":claim,"failed":fails,"tightened":[]}
    print(json.dumps(rec),flush=True)
    if not fails: print('  ^^^ SURVIVED' if r.returncode==0 else '  ^^^ build failed: '+out[-500:],flush=True)
