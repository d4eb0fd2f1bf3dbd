import json,re,glob,subprocess
props=[json.loads(l) for l in open('/verif/properties.jsonl')]
thms={}
for f in sorted(glob.glob('/verif/lean/Verif/Props/*.lean')):
    for m in re.finditer(r'^theorem (c(\d\d\d?)_\w+)',open(f).read(),re.M):
        thms.setdefault('C%02d'%int(m.group(2)),[]).append('Glum.'+m.group(1))
exec(open('/tmp/w/status.py').read())  # STATUS: id -> (status, note), EXTRA: id -> [theorems]
claims=[]
for p in props:
    i=p['id']
    t=thms.get(i,[])+EXTRA.get(i,[])
    if not t and i not in STATUS: continue
    st,note=STATUS.get(i,(None,''))
    if st is None: st='partial' if any('partial' in x for x in t) else 'proved'
    claims.append(dict(property=i,status=st,theorems=t,note=note))
json.dump({"claims":claims},open('/verif/MANIFEST.json','w'),indent=1)
print(len(claims),'claims of',len(props)); print('missing',[p['id'] for p in props if p['id'] not in [c['property'] for c in claims]])
