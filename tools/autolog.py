"""usage: autolog.py RESULTS.jsonl [TIGHTENED.json]: append results of automutate.py to seeded/LOG.jsonl."""
import json,sys
T=json.load(open(sys.argv[2])) if len(sys.argv)>2 else {}
n=0
with open('/verif/seeded/LOG.jsonl','a') as f:
    for l in open(sys.argv[1]):
        r=json.loads(l)
        if r['status'] not in('killed','SURVIVED'): continue
        mod=r['file'][len('Verif/Model/'):-5]
        t=T.get(mod+'.'+r['definition'],T.get(r['definition'],[]))
        claim='(random mutation) what is claimed of '+mod+'.'+r['definition']
        e={'definition':mod+'.'+r['definition'],'edit':r['old']+'  -->  '+r['new'],'claim':claim,'theorems_failed':[r['where']] if r['status']=='killed' else [],'theorems_tightened':t if r['status']=='SURVIVED' else []}
        if r['status']=='SURVIVED' and isinstance(t,str): e['claim']=t; e['theorems_tightened']=[]
        f.write(json.dumps(e,ensure_ascii=False)+'\n'); n+=1
print(n)
