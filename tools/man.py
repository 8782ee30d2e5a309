import json,re,glob,sys
# status notes: property -> (status, note); theorems discovered by name prefix Cxx_
notes=json.load(open('/verif/tools/notes.json'))
thms={}
for f in sorted(glob.glob('/verif/lean/Verif/Props/*.lean')):
    t=open(f).read()
    ns=re.search(r'^namespace (\S+)',t,re.M).group(1)
    for m in re.finditer(r'^theorem (C(\d\d+)_\w+)',t,re.M):
        thms.setdefault('C'+m.group(2),[]).append(ns+'.'+m.group(1))
claims=[]
for l in open('/verif/properties.jsonl'):
    p=json.loads(l)['id']
    if p in notes:
        st,note=notes[p]
        claims.append(dict(property=p,status=st,theorems=thms.get(p,[]),note=note))
json.dump({'claims':claims},open('/verif/MANIFEST.json','w'),indent=1,ensure_ascii=False)
missing=[p for p in thms if p not in notes]
print('claims',len(claims),'thms without note',missing)
