"""Mutation testing: apply an edit to a scratch copy of the Lean project, rebuild, report the theorems that fail.

usage: mutate.py MUTANTS.json   (list of {file, definition, old, new, edit, claim})
Appends one line per mutant to /verif/seeded/LOG.jsonl.
"""
import json, os, re, shutil, subprocess, sys
SRC='/verif/lean'; SCR=os.environ.get('SCR','/tmp/scratch/lean')
def sync():
    os.makedirs(os.path.dirname(SCR),exist_ok=True)
    subprocess.run(['rsync','-a','--delete',SRC+'/',SCR+'/'],check=True) if shutil.which('rsync') else (shutil.rmtree(SCR,ignore_errors=True), shutil.copytree(SRC,SCR,symlinks=True))
def decl(path,line):
    ls=open(path).read().split('\n')
    for i in range(min(line,len(ls))-1,-1,-1):
        m=re.match(r'\s*(?:@\[.*?\]\s*)?(?:private |protected )?(theorem|lemma|example|def|instance|structure|inductive|abbrev)\b\s*([^\s:({\[]*)',ls[i])
        if m: return (m.group(1)+' '+m.group(2)).strip()
    return '?'
def run(mu):
    p=os.path.join(SCR,mu['file'])
    orig=open(p).read()
    assert orig.count(mu['old'])>=1, ('no match',mu['file'],mu['old'])
    assert orig.count(mu['old'])==1 or mu.get('multi'), ('ambiguous',orig.count(mu['old']),mu['old'])
    open(p,'w').write(orig.replace(mu['old'],mu['new']))
    r=subprocess.run(['lake','build'],cwd=SCR,capture_output=True,text=True)
    out=r.stdout+r.stderr
    failed=[]
    for f,l in re.findall(r'error: (Verif/[^:]+\.lean):(\d+):',out):
        d=decl(os.path.join(SCR,f),int(l))
        t=f"{f[6:-5]}: {d}"
        if t not in failed: failed.append(t)
    mods=re.findall(r'^- (Verif\.\S+)',out,re.M)
    open(p,'w').write(orig)
    return failed,mods,r.returncode
if __name__=='__main__':
    sync()
    for mu in json.load(open(sys.argv[1])):
        n=open(os.path.join(SCR,mu['file'])).read().count(mu['old'])
        if n==0 or (n>1 and not mu.get('multi')):
            print('SKIPPED',n,mu['definition'],mu['old'],flush=True); continue
        failed,mods,rc=run(mu)
        rec=dict(definition=mu['definition'],edit=mu['edit'],claim=mu['claim'],theorems_failed=failed,theorems_tightened=mu.get('tightened',[]))
        print('SURVIVED' if rc==0 else 'killed', mu['definition'],'|',mu['edit'],'|',failed[:4],flush=True)
        open('/verif/seeded/LOG.jsonl','a').write(json.dumps(rec)+'\n')
    sync(); subprocess.run(['lake','build'],cwd=SCR,capture_output=True)
