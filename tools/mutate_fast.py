#!/usr/bin/env python3
"""Like mutate.py, but a build is ended some seconds after the first failing proof (GRACE).  Mutants whose model file
itself no longer elaborates are reported as invalid."""
import sys,subprocess,shutil,os,re,json,runpy,time,signal
SC=os.environ.get('SC','/tmp/scratch'); GRACE=float(os.environ.get('GRACE','25'))
ms=runpy.run_path(sys.argv[1])['M']
if not os.path.exists(SC):
    shutil.copytree('/verif/lean',SC,symlinks=True)
else:
    shutil.rmtree(SC+'/Verif'); shutil.copytree('/verif/lean/Verif',SC+'/Verif')
    shutil.copy('/verif/lean/Verif.lean',SC+'/Verif.lean')
base={}
def decl(f,line):
    L=open(f).read().split('\n')
    for i in range(min(line,len(L))-1,-1,-1):
        m=re.match(r'\s*(?:@\[.*\]\s*)?(?:private )?(theorem|lemma|def|example|instance|abbrev)\b\s*(\S+)?',L[i])
        if m: return (m.group(2) if m.group(1)!='example' else 'example@%s:%d'%(os.path.basename(f),i+1))
    return '?'
for (mod,old,new,d,edit,claim) in ms:
    p=os.path.join(SC,'Verif',mod)
    if mod not in base: base[mod]=open(p).read()
    src=base[mod]
    if src.count(old)!=1:
        print('BAD',mod,old,src.count(old),flush=True);continue
    open(p,'w').write(src.replace(old,new))
    pr=subprocess.Popen(['nice','lake','build']+os.environ.get('TARGET','').split(),cwd=SC,stdout=subprocess.PIPE,stderr=subprocess.STDOUT,text=True,start_new_session=True)
    fails=[];first=None;invalid=False;out=[]
    os.set_blocking(pr.stdout.fileno(),False)
    buf=''
    while True:
        try: c=pr.stdout.read()
        except Exception: c=None
        if c:
            buf+=c
            while '\n' in buf:
                ln,buf=buf.split('\n',1); out.append(ln)
                m=re.match(r'error: (Verif/\S+\.lean):(\d+):',ln)
                if m:
                    if m.group(1)=='Verif/'+mod or m.group(1).startswith('Verif/Model/'): invalid=True
                    n=decl(os.path.join(SC,m.group(1)),int(m.group(2)))
                    if n not in fails: fails.append(n)
                    if first is None: first=time.time()
        if pr.poll() is not None and not c: break
        if first and (time.time()-first>GRACE or invalid):
            try: os.killpg(pr.pid,signal.SIGTERM)
            except ProcessLookupError: pass
            pr.wait(); break
        time.sleep(0.3)
    rc=pr.poll()
    open(p,'w').write(src)
    if invalid: print('INVALID',json.dumps([d,edit]),flush=True); continue
    rec={"definition":d,"edit":edit,"claim":claim,"failed":fails,"tightened":[]}
    print(json.dumps(rec),flush=True)
    if not fails: print('  ^^^ SURVIVED' if rc==0 else '  ^^^ build failed: '+'\n'.join(out[-5:]),flush=True)
