import re,os,glob,collections
R='/repo'
funcs=[]
files=sorted(f for f in glob.glob(R+'/**/*.go',recursive=True) if not f.endswith('_test.go') and '.pb.' not in f)
for f in files:
    ls=open(f).read().split('\n')
    for i,l in enumerate(ls):
        m=re.match(r'func (?:\((?:\w+ )?\*?([\w\[\], ]+?)\) )?(\w+)',l)
        if m:
            j=i
            if not l.rstrip().endswith('}'):
                while ls[j]!='}': j+=1
            t=(m.group(1) or '').split('[')[0]
            funcs.append((f[len(R)+1:],(t+'.' if t else '')+m.group(2),i+1,j+1))
cites=collections.defaultdict(list)
byname=collections.defaultdict(set)
for f in files: byname[os.path.basename(f)].add(f[len(R)+1:])
for p in sorted(glob.glob('/verif/lean/Verif/**/*.lean',recursive=True)):
    s=open(p).read()
    last=None
    for c in re.finditer(r'/-[-!](.*?)-/\s*(?:@\[[^\]]*\]\s*)?(?:open [^\n]* in\s*)?(?:noncomputable )?(?:(?:def|structure|inductive|abbrev|theorem|instance) (\S+))?',s,re.S):
        text=c.group(1); name=c.group(2)
        cur=None
        for m in re.finditer(r'((?:[\w\-]+/)*[\w\-]+\.go)(?::(\d+(?:-\d+)?))?|(?<=[,;] )(\d+(?:-\d+)?)\b|(?<=and )(\d+-\d+)\b|(?<=\()(\d+-\d+)(?=\))',text):
            if m.group(1):
                b=m.group(1); cand=[x for x in byname.get(os.path.basename(b),[]) if x.endswith(b)]
                if len(cand)>1 and last in cand: cand=[last]
                cur=cand
                if len(cand)==1: last=cand[0]
                rng=m.group(2)
            else: rng=m.group(3) or m.group(4) or m.group(5)
            if cur and rng:
                a,_,b2=rng.partition('-'); a=int(a); b2=int(b2 or a)
                for f in cur: cites[f].append((a,b2,os.path.relpath(p,'/verif/lean/Verif'),name))

T="a constructor, setter, getter or one-line wrapper: reflected in the definition of its callers"
P="takes from or returns to a pool (C69, C71, C75) or allocates; reflected where it is used"
L="logging, flags, command descriptions or wiring of libraries"
U="not called by the program"
E="delegates to a library that is a parameter of the model"
TST="test helper"
REASON={
'cmd/rq/main.go':{'*':L},
'internal/arena/arena.go':{'*':"part of `Marshal`, `Compress` in Model/Arena.lean"},
'internal/arrow3/arrow3.go':{'*':T},
'internal/arrow3/node.go':{'*':"an option of the Arrow schema; the model's builders accept nulls"},
'internal/arrow3/parquet.go':{'*':"parquet, a library: a faithful list of rows in the model"},
'internal/batch/batch.go':{'Batch.shardWidth':"the constant `shardWidth`",'*':"debug text: "+U},
'internal/batch/time.go':{'QuantizedTime.Views':T,'NeqQuantumTime':P,'*':U},
'internal/bitmaps/bitmaps.go':{'*':T},
'internal/commands/home.go':{'*':L},
'internal/commands/query/query.go':{'*':L},
'internal/commands/version/version.go':{'*':L},
'internal/compile/compile.go':{'*':"bundles a script with esbuild, a library: the function `compile` of C68"},
'internal/compress/grpc.go':{'*':L},
'internal/data/logs.go':{'*':P},'internal/data/sort.go':{'Sorter.Len':T,'*':P},
'internal/dataframe/columns.go':{'*':T},
'internal/dataframe/dataframe.go':{'txnValue':E,'txnBitmap':E,'*':T},
'internal/f2/attr.go':{'*':P},'internal/f2/id.go':{'*':"ids of a badger sequence: Model/Seq.lean (Model/Flat.lean takes them from there)"},'internal/f2/pool.go':{'*':P},
'internal/js/rq.go':{'*':"prints to the writer of the engine (`writes` in Model/Engine.lean)"},
'internal/js/scan.go':{'*':T},
'internal/keys/keys.go':{'*':T},'internal/labels/labels.go':{'*':T},
'internal/logger/fail.go':{'*':"ends the process: the outcome `exit` of the model"},'internal/logger/setup.go':{'*':L},
'internal/render/pool.go':{'*':P},
'internal/retry/retry.go':{'*':U},
'internal/rows/bsi.go':{'*':U},
'internal/rows/row.go':{'Row.Hash':U,'*':T},
'internal/self/metrics/transform/attribute.go':{'*':"element by element, as `sliceValue` of Model/SelfDetail.lean"},
'internal/self/metrics/transform/error.go':{'*':"the text of errors, which are logged"},
'internal/self/metrics/transform/metricdata.go':{'*':T},
'internal/self/self.go':{'*':L},
'internal/self/trace/tracetransform/attribute.go':{'*':"element by element, as `sliceValue` of Model/SelfDetail.lean"},
'internal/self/trace/tracetransform/resource.go':{'*':T},
'internal/service/api.go':{'*':"a constant"},
'internal/service/service.go':{'NewService':L,'*':T},
'internal/snippets/snippets.go':{'*':T},
'internal/store/store.go':{'Storage.Close':L,'*':"does nothing"},
'internal/test/test.go':{'*':TST},
'internal/transform/transform.go':{'*':T},
'internal/translate/translate.go':{'Translate.Close':T,'*':P},
'internal/view/view.go':{'*':T},
'internal/visit/visit.go':{'*':T},
'internal/x/x.go':{'Decompress':U,'LowBits':U,'*':T},
}
if __name__=='__main__':
    out=['# Which functions are modelled','',
      'Generated by `tools/coverage.py`: every function of the repository outside tests and generated code, with the definitions of the model whose',
      'comments cite its lines, or the reason why it has none of its own.','']
    n=0; miss=[]
    for f in dict.fromkeys(x[0] for x in funcs):
        out+=['## '+f,'','| function | lines | model |','|---|---|---|']
        for g,fn,a,b in funcs:
            if g!=f: continue
            hit=sorted({(c[2][:-5],c[3] or '(module)') for c in cites[f] if c[0]<=b and c[1]>=a and c[2].startswith('Model')})
            if not hit: hit=sorted({(c[2][:-5],c[3] or '(module)') for c in cites[f] if c[0]<=b and c[1]>=a})
            if hit:
                n+=1
                by=collections.defaultdict(list)
                for m,d in hit: by[m].append('`%s`'%d.rstrip(':'))
                t='; '.join('%s: %s'%(m,', '.join(v[:6])+(' …' if len(v)>6 else '')) for m,v in by.items())
            else:
                r=REASON.get(f,{}); t=r.get(fn,r.get('*'))
                if t is None: miss.append((f,fn)); t='?'
                t='— '+t
            out.append('| `%s` | %d–%d | %s |'%(fn,a,b,t))
        out.append('')
    out.insert(5,'%d of %d functions are cited.'%(n,len(funcs))); out.insert(6,'')
    open('/verif/COVERAGE.md','w').write('\n'.join(out))
    print(n,len(funcs),miss)
