#!/usr/bin/env python3
"""Regenerates MANIFEST.json from the table below (keeps entries short and in one place)."""
import json,sys
C={}
def c(p,status,ths,note=""): C[p]=dict(property=p,status=status,theorems=ths,note=note)
exec(open('/verif/manifest_table.py').read())
ids=[json.loads(l)['id'] for l in open('/verif/properties.jsonl')]
json.dump({"claims":[C[i] for i in ids if i in C]},open('/verif/MANIFEST.json','w'),indent=1)
print("missing:",[i for i in ids if i not in C])
