import json,re,glob
# gather theorem names by Cxx prefix from Props files
claims={}
names={}
for f in sorted(glob.glob('/verif/lean/Verif/**/*.lean',recursive=True)):
    ns=[]
    txt=open(f).read()
    txt=re.sub(r'/-.*?-/','',txt,flags=re.S)
    for line in txt.split('\n'):
        m=re.match(r'namespace (\S+)',line)
        if m: ns.append(m.group(1))
        m=re.match(r'end (\S+)',line)
        if m and ns and ns[-1]==m.group(1): ns.pop()
        m=re.match(r'(?:@\[[^\]]*\]\s*)?(?:private )?theorem (\S+)',line)
        if m:
            n=m.group(1); mm=re.match(r'(C\d+)_',n)
            if mm: names.setdefault(mm.group(1),[]).append('.'.join(ns+[n]))
notes=json.load(open('/verif/tools/notes.json'))
props=[json.loads(l) for l in open('/verif/properties.jsonl')]
out=[]
for p in props:
    i=p['id']; th=names.get(i,[])
    st=notes.get(i,{}).get('status') or ('proved' if th else None)
    if st is None: 
        st='partial'; 
        out.append(dict(property=i,status='partial',theorems=[],note='not yet modelled')); continue
    out.append(dict(property=i,status=st,theorems=th,note=notes.get(i,{}).get('note','')))
json.dump({'claims':out},open('/verif/MANIFEST.json','w'),indent=1,ensure_ascii=False)
for o in out: print(o['property'],o['status'],len(o['theorems']))
