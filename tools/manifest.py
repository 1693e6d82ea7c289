#!/usr/bin/env python3
"""Regenerates lean/Verif.lean (imports) and MANIFEST.json from the theorem names C<nn>_… in lean/Verif/Props."""
import json, re, glob, os
root='/verif/lean/Verif'
mods=sorted(os.path.relpath(p,'/verif/lean')[:-5].replace('/','.') for p in glob.glob(root+'/**/*.lean',recursive=True))
open('/verif/lean/Verif.lean','w').write(''.join(f'import {m}\n' for m in mods))
thms={}
for p in sorted(glob.glob(root+'/Props/**/*.lean',recursive=True)):
    ns=[]
    for line in open(p):
        m=re.match(r'namespace (\S+)',line)
        if m: ns.append(m.group(1))
        m=re.match(r'end (\S+)',line)
        if m and ns and ns[-1]==m.group(1): ns.pop()
        m=re.match(r'(?:@\[[^\]]*\]\s*)?(?:noncomputable )?theorem (C(\d\d+)_\S+)',line)
        if m: thms.setdefault('C'+m.group(2),[]).append('.'.join(ns+[m.group(1)]))
from manifest_notes import NOTES
claims=[]
for l in open('/verif/properties.jsonl'):
    i=json.loads(l)['id']
    t=thms.get(i,[])
    status,note=NOTES.get(i,(None,''))
    if status is None: status='proved' if t and not all(x.endswith('_partial') for x in t) else 'partial'
    if not t: status='partial'; note=note or 'no theorem yet'
    claims.append(dict(property=i,status=status,theorems=t,note=note))
json.dump(dict(claims=claims),open('/verif/MANIFEST.json','w'),indent=1)
from collections import Counter
print(Counter(c['status'] for c in claims), 'without theorems:',[c['property'] for c in claims if not c['theorems']], sum(len(c['theorems']) for c in claims))
