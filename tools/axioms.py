# Prints, for every theorem in MANIFEST.json, the axioms it depends on, and rewrites the table at the end of DESIGN.md.
import json,subprocess,re,os
m=json.load(open('/verif/MANIFEST.json'))
ths=[(c['property'],t) for c in m['claims'] for t in c['theorems']]
os.makedirs('/tmp/ax',exist_ok=True)
open('/tmp/ax/Ax.lean','w').write('import Verif\n'+'\n'.join(f'#print axioms {t}' for _,t in ths)+'\n')
r=subprocess.run(['lake','env','lean','/tmp/ax/Ax.lean'],cwd='/verif/lean',capture_output=True,text=True)
out=r.stdout+r.stderr
out=re.sub(r'\n\s+',' ',out)
ax={}
for l in out.split('\n'):
    a=re.match(r"'([^']+(?:'[^' ]*)?)' depends on axioms: \[(.*)\]",l)
    b=re.match(r"'(.+)' does not depend on any axioms",l)
    if a: ax[a.group(1)]=', '.join(sorted(a.group(2).replace(' ','').split(',')))
    elif b: ax[b.group(1)]='none'
    elif l.strip(): print('??',l)
assert all(t in ax for _,t in ths), [t for _,t in ths if t not in ax]
g={}
for p,t in ths: g.setdefault(ax[t],[]).append((p,t))
s='| axioms | theorems |\n|---|---|\n'
for k in sorted(g,key=lambda k:-len(g[k])):
    s+=f'| {k} | '+', '.join(f'`{t.replace("Arax.","")}`' for p,t in sorted(set(g[k])))+' |\n'
d=open('/verif/DESIGN.md').read()
mark='<!-- axioms -->\n'
if mark in d: d=d[:d.index(mark)]
else: d=d.rstrip()+'\n\n'
open('/verif/DESIGN.md','w').write(d+mark+s)
print({k:len(v) for k,v in g.items()})
