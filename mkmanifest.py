import json,re,sys,os,glob
props=[json.loads(l) for l in open('/verif/properties.jsonl')]
thms={}
for f in sorted(glob.glob('/verif/lean/Verif/Props/*.lean')):
    ns=[]
    for l in open(f):
        m=re.match(r'namespace\s+(\S+)',l)
        if m: ns.append(m.group(1))
        m=re.match(r'end\s+(\S+)',l)
        if m and ns and ns[-1]==m.group(1): ns.pop()
        m=re.match(r'(?:@\[.*?\]\s*)?theorem\s+(C(\d\d)_\S+)',l)
        if m: thms.setdefault('C'+m.group(2),[]).append('.'.join(ns+[m.group(1)]))
notes=json.load(open('/verif/notes.json')) if os.path.exists('/verif/notes.json') else {}
claims=[]
for p in props:
    t=thms.get(p['id'],[])
    n=notes.get(p['id'],{})
    if not t:
        if n.get('status')!='not_applicable': continue
    st=n.get('status') or ('partial' if any(x.endswith('_partial') for x in t) else 'proved')
    claims.append({'property':p['id'],'status':st,'theorems':t,'note':n.get('note','')})
json.dump({'claims':claims},open('/verif/MANIFEST.json','w'),indent=1)
print(len(claims),'claims',sum(len(c['theorems']) for c in claims),'theorems; missing',[p['id'] for p in props if p['id'] not in {c['property'] for c in claims}])
