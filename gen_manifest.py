#!/usr/bin/env python3
"""Regenerates MANIFEST.json: theorems named Cnn_* in lean/Verif/Props, statuses and notes from below."""
import json,re,glob,collections
NOTES={}
STATUS={}
exec(open('/verif/manifest_notes.py').read())
th=collections.OrderedDict()
for f in sorted(glob.glob('/verif/lean/Verif/Props/*.lean')):
    ns='Pigo'
    for l in open(f):
        n=re.match(r'namespace (\S+)',l)
        if n: ns=n.group(1)
        m=re.match(r'theorem (C\d+)(_\w+)',l)
        if m: th.setdefault(m.group(1),[]).append(ns+'.'+m.group(1)+m.group(2))
claims=[]
for l in open('/verif/properties.jsonl'):
    i=json.loads(l)['id']
    if i in th:
        st=STATUS.get(i) or ('partial' if any(t.endswith('_partial') or '_violated' in t for t in th[i]) else 'proved')
        claims.append({'property':i,'status':st,'theorems':th[i],'note':NOTES.get(i,'')})
    elif i in STATUS:
        claims.append({'property':i,'status':STATUS[i],'theorems':[],'note':NOTES.get(i,'')})
json.dump({'claims':claims},open('/verif/MANIFEST.json','w'),indent=1)
print(len(claims),'claims')
