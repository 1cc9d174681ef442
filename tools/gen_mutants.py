#!/usr/bin/env python3
"""Generates mechanical mutants of the model (operator, constant and statement mutations) for mutate_fast.py.
usage: gen_mutants.py SEED COUNT OUT.py FILES..."""
import sys,re,random
seed,count,out=int(sys.argv[1]),int(sys.argv[2]),sys.argv[3]; files=sys.argv[4:]
random.seed(seed)
OPS=[(r' < ',' ≤ '),(r' ≤ ',' < '),(r' > ',' ≥ '),(r' ≥ ',' > '),(r' ≠ ',' = '),(r'if ([^:=]*?) = ',None),(r' ∧ ',' ∨ '),(r' ∨ ',' ∧ '),
 (r'\bs\.round\b','s.height'),(r'\bs\.height\b','s.round'),(r'\.prevote\b','.precommit'),(r'\.precommit\b','.prevote'),(r' \+ 1\b',' + 2'),(r'\btrue\b','false'),(r'\bfalse\b','true'),
 (r'inc64 (\w+(?:\.\w+)?)',r'\1'),(r'lockRound\b','none'),(r'\bqc\.round\b','s.round'),(r'\bqc\.blockHash\b','[]'),(r' \* 3\b',' * 2'),(r' \* 2\b',' * 3'),(r' - 1\b',''),(r' \+ 1\b',''),(r'\bsome (\w+)\b(?! =>)','none'),
 (r'(\S+) \+\+ (\S+)',r'\2 ++ \1'),(r'\bfilter\b','filterNot'),(r'\bs\.authority\b','Authority.new'),(r'\.insert (\S+) (\S+)(?=[ ,)}])',''),(r'\bs\.address\b','s.leaderAddress'),(r'\.erase \S+',''),
 (r'\bl\.round\b','s.round'),(r'\bt\.round\b','s.round'),(r'\bt\.height\b','s.height'),(r'\bt\.hash\b','s.blockHash'),(r'\bU64\b','U32'),(r'\bU32\b','U64'),(r' / ',' % '),(r' % ',' / '),(r'\b10\b','11'),(r'\b0\b','1')]
M=[]
for f in files:
    src=open('/verif/lean/Verif/'+f).read()
    L=src.split('\n')
    cur='?';incom=False;start=False
    for i,l in enumerate(L):
        if '/-' in l: incom=True
        if incom:
            if '-/' in l: incom=False
            continue
        m=re.match(r'(?:def|protected def|inductive|structure|instance|abbrev)\s+(\S+)',l)
        if m: cur=m.group(1); kind=l.split()[0]
        if cur=='?' or kind in('structure','inductive','instance') or l.strip()=='' or l.startswith(('def','end','section','variable','open','namespace','import','deriving','/--')): continue
        ctx='\n'.join(L[i-1:i+2])
        cands=[]
        for a,b in OPS:
            if b is None: continue
            for mm in re.finditer(a,l):
                if re.match(r'\s*\|',l) and mm.start()<l.find('=>'): continue
                nl=l[:mm.start()]+mm.expand(b)+l[mm.end():]
                if nl!=l: cands.append((nl,'`%s` -> `%s`'%(l.strip(),nl.strip())))
        # drop one field of a record update
        mm=re.search(r'\{ \w+ with (.*?) \}',l)
        if mm:
            fs=re.split(r', (?=\w+ := )',mm.group(1))
            for k in range(len(fs)):
                rest=fs[:k]+fs[k+1:]
                base=re.match(r'\{ (\w+) with',mm.group(0)).group(1)
                nl=l[:mm.start()]+('{ %s with %s }'%(base,', '.join(rest)) if rest else base)+l[mm.end():]
                cands.append((nl,'drop field: `%s` -> `%s`'%(l.strip(),nl.strip())))
        # swap branches of a one-line conditional
        mm=re.search(r'if (.*?) then (.*?) else (.*)$',l)
        if mm and 'if' not in mm.group(3) and l.count('(')==l.count(')') and mm.group(3).count('(')==mm.group(3).count(')'):
            nl=l[:mm.start()]+'if %s then %s else %s'%(mm.group(1),mm.group(3),mm.group(2))
            cands.append((nl,'swap branches: `%s` -> `%s`'%(l.strip(),nl.strip())))
        # replace a condition by a constant
        mm=re.search(r'\bif (.*?) then',l)
        if mm:
            for c in ('True','False'):
                nl=l[:mm.start()]+'if %s then'%c+l[mm.end():]
                cands.append((nl,'condition %s: `%s`'%(c,l.strip())))
        st=l.strip()
        if re.match(r'(emit|modify|broadcast|transmit|reCheck|setUpdateFrom|saveWal|saveWalWithLockRound|checkBlock|verifyAddress|verifyProposer|checkChoke|reportViewChange|voteProcess|checkChokeAboveThreshold)\b',st) and st.count('(')==st.count(')') and st.count('{')==st.count('}'):
            cands.append((l.replace(st,'pure ()'),'drop `%s`'%st))
        for nl,e in cands:
            old='\n'.join(L[max(0,i-2):i+1]); new='\n'.join(L[max(0,i-2):i]+[nl])
            if src.count(old)==1: M.append((f,old,new,cur,e,'mechanical mutant'))
random.shuffle(M)
open(out,'w').write('M='+repr(M[:count]))
print(len(M))
