#!/usr/bin/env python3
"""Regenerates the table of properties, theorems and axioms in DESIGN.md (needs a built lean/)."""
import json,re,subprocess,tempfile,os
P=[json.loads(l) for l in open('/verif/properties.jsonl')]
M={c['property']:c for c in json.load(open('/verif/MANIFEST.json'))['claims']}
ths=[t for p in P if p['id'] in M for t in M[p['id']]['theorems']]
src="import Verif\n"+"".join(f"#print axioms {t}\n" for t in ths)
f=tempfile.NamedTemporaryFile('w',suffix='.lean',delete=False); f.write(src); f.close()
out=subprocess.run(['lake','env','lean',f.name],cwd='/verif/lean',capture_output=True,text=True).stdout
os.unlink(f.name)
ax={}
for m in re.finditer(r"'([^']+)' (does not depend on any axioms|depends on axioms: \[([^\]]*)\])",out):
    ax[m.group(1)]=[a.strip() for a in (m.group(3) or '').split(',') if a.strip()]
short={'propext':'P','Classical.choice':'C','Quot.sound':'Q'}
def a(t): return ''.join(sorted(short[x] for x in ax[t])) or '–'
rows=["| property | status | theorems (axioms) | note |","|---|---|---|---|"]
for p in P:
    m=M.get(p['id'])
    if not m: continue
    rows.append("| %s %s | %s | %s | %s |"%(p['id'],p['title'],m['status'],', '.join('`%s` (%s)'%(t.removeprefix('Verif.'),a(t)) for t in m['theorems']),m['note']))
d=open('/verif/DESIGN.md').read()
d=re.sub(r"<!-- table -->.*<!-- /table -->",lambda _:"<!-- table -->\n"+"\n".join(rows)+"\n<!-- /table -->",d,flags=re.S)
open('/verif/DESIGN.md','w').write(d)
print(len(ths),"theorems")
