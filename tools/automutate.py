"""Random mutation of the definitions in lean/Verif/Model; needs /tmp/scratch/lean (see mutate.py).

usage: automutate.py SEED COUNT OUT.jsonl
A mutant that does not compile in its own file is dropped; the build is stopped at the first theorem that fails.
"""
import json, os, re, random, subprocess, sys, glob, signal, time
sys.path.insert(0,os.path.dirname(__file__))
from mutate import sync, decl, SCR
OPS=[(r' < ',' ≤ '),(r' ≤ ',' < '),(r' ∧ ',' ∨ '),(r' ∨ ',' ∧ '),(r' \+ 1\b',''),(r' \+ 1\b',' + 2'),(r' - 1\b',''),(r'\btrue\b','false'),(r'\bfalse\b','true'),
 (r'(?<=if )(\S+) = ',r'\1 ≠ '),(r'(?<=if )(\S+) ≠ ',r'\1 = '),(r'\.take\b','.drop'),(r'\.drop\b','.take'),(r'\bmin\b','max'),(r'\bmax\b','min'),
 (r'(\w+(?:\.\w+)*) \+\+ (\w+(?:\.\w+)*)',r'\2 ++ \1'),(r'(\w+(?:\.\w+)*) \+\+ (\w+(?:\.\w+)*)',r'\1'),(r'\{ (\w+) with [^{}]* \}',r'\1'),(r'(?<=:= )some \(?[\w.]+\)?$','none'),
 (r'(?<=\+ )(\w+(?:\.\w+)*)\b',r'0'),(r'\bnone => none\b','none => some default'),(r' == ',' != '),(r' != ',' == '),(r'\.head\?','.getLast?'),(r'\.reverse\b',''),(r'\.filter\b','.dropWhile'),
 (r' / ',' % '),(r' % ',' / '),(r'\bif ([^,\n]*?) then ([^\n]*?) else ([^\n]*)$',r'if \1 then \3 else \2'),(r'\bif ([^,\n]*?) then ([^\n]*?) else ([^\n]*)$',r'\2'),(r'\bif ([^,\n]*?) then ([^\n]*?) else ([^\n]*)$',r'\3'),
 (r'\b(\d+)\b(?=[^\w.]*$)',lambda m:str(int(m.group(1))+1)),(r'⟨([^⟨⟩,]+), ([^⟨⟩,]+)⟩',r'⟨\2, \1⟩'),(r'\(([^(),]+), ([^(),]+)\)',r'(\2, \1)')]
def sites():
    res=[]
    for f in sorted(glob.glob(SCR+'/Verif/Model/*.lean')):
        ls=open(f).read().split('\n'); cur=None; com=False
        for i,l in enumerate(ls):
            if '/-' in l: com=True
            if com:
                if '-/' in l: com=False
                continue
            m=re.match(r'(?:noncomputable )?(def|theorem|structure|inductive|instance|abbrev|example|lemma)\b\s*(\S*)',l)
            if m: cur=(m.group(1),m.group(2))
            if not cur or cur[0]!='def': continue
            body=l
            off=0
            if m:
                k=l.find(':=')
                if k<0: continue
                off=k
            for oi,(pat,rep) in enumerate(OPS):
                for mm in re.finditer(pat,l):
                    if mm.start()<off: continue
                    new=l[:mm.start()]+mm.expand(rep) + l[mm.end():] if isinstance(rep,str) else l[:mm.start()]+rep(mm)+l[mm.end():]
                    if new!=l: res.append((f,cur[1],i,l,new,oi))
    return res
def build(f):
    p=subprocess.Popen(['lake','build'],cwd=SCR,stdout=subprocess.PIPE,stderr=subprocess.STDOUT,text=True,preexec_fn=os.setsid)
    first=None; t0=time.time()
    for line in p.stdout:
        m=re.match(r'error: (Verif/[^:]+\.lean):(\d+):',line)
        if m:
            first=(m.group(1),int(m.group(2)))
            os.killpg(p.pid,signal.SIGTERM); break
        if time.time()-t0>2400: os.killpg(p.pid,signal.SIGTERM); return ('timeout',0)
    p.stdout.close(); p.wait()
    return first, p.returncode
if __name__=='__main__':
    seed,count,out=int(sys.argv[1]),int(sys.argv[2]),sys.argv[3]
    sync(); random.seed(seed); S=sites(); print(len(S),'sites',flush=True)
    bydef={}
    for s in S: bydef.setdefault((s[0],s[1]),[]).append(s)
    keys=sorted(bydef); random.shuffle(keys)
    n=0; rounds=0
    while n<count and rounds<6:
        rounds+=1
        for k in keys:
            if n>=count: break
            if not bydef[k]: continue
            s=random.choice(bydef[k]); bydef[k].remove(s)
            f,d,i,old,new,oi=s
            orig=open(f).read(); ls=orig.split('\n'); assert ls[i]==old
            ls[i]=new; open(f,'w').write('\n'.join(ls))
            r=build(f); open(f,'w').write(orig)
            rel=os.path.relpath(f,SCR)
            if r[0]=='timeout': st='timeout'; where=''
            elif r[0] is None: st='SURVIVED' if r[1]==0 else 'other'; where=''
            elif '/Model/' in r[0][0]: st='invalid'; where=r[0][0]
            else: st='killed'; where=f"{r[0][0][6:-5]}: {decl(os.path.join(SCR,r[0][0]),r[0][1])}"
            rec=dict(status=st,file=rel,definition=d,line=i+1,old=old.strip(),new=new.strip(),where=where)
            open(out,'a').write(json.dumps(rec,ensure_ascii=False)+'\n')
            if st!='invalid': n+=1; print(n,st,rel,d,'|',old.strip(),'-->',new.strip(),'|',where,flush=True)
    sync()
