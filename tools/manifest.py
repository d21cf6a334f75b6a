#!/usr/bin/env python3
"""Regenerate MANIFEST.json.  Theorems are found by name (C<nn>_...) in lean/Verif/Props."""
import json,re,glob,os
root=os.path.dirname(os.path.dirname(os.path.abspath(__file__)))
thms={}
for f in sorted(glob.glob(root+'/lean/Verif/Props/*.lean')):
    ns=[]
    for line in open(f):
        m=re.match(r'\s*(?:@\[[^\]]*\]\s*)?theorem (C(\d\d)_\w+)',line)
        if m: thms.setdefault('C'+m.group(2),[]).append('YamlPeg.Props.'+m.group(1))
st=json.load(open(root+'/tools/status.json'))
props=[json.loads(l)['id'] for l in open(root+'/properties.jsonl')]
claims=[]
for p in props:
    if p in thms:
        s=st.get(p,["partial",""])
        claims.append({"property":p,"status":s[0],"theorems":thms[p],"note":s[1]})
    elif p in st and st[p][0]=="not_applicable":
        claims.append({"property":p,"status":"not_applicable","theorems":[],"note":st[p][1]})
    else: print("no theorem yet:",p)
json.dump({"claims":claims},open(root+'/MANIFEST.json','w'),indent=1)
print(len(claims),"claims",sum(len(c["theorems"]) for c in claims),"theorems")
