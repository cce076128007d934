import json,sys
# usage: addprops.py file.py defining P (props), ROWS (design rows), SCOPE (list), FIND (list), IMPORTS
exec(open(sys.argv[1]).read())
have={json.loads(l)['id'] for l in open('/verif/properties.jsonl')}
with open('/verif/properties.jsonl','a') as f:
    for i,t,s,q,a in P:
        if i in have: continue
        f.write(json.dumps(dict(id=i,title=t,statement=s,quantifier=q,why_tests_cant="must hold for every input, not a sample",anchors=a),ensure_ascii=False)+"\n")
p='/verif/DESIGN.md';s=open(p).read()
i=s.index("\n\n## What is and is not modelled")
s=s[:i]+"".join("\n| %s | %s | %s |"%(tuple(r) if len(r)==3 else (r[0],)+tuple(x.strip() for x in r[1].split(";",1))) for r in ROWS)+s[i:]
i=s.index("* Not reached:")
s=s[:i]+"".join("* "+x.lstrip("* ")+"\n" for x in SCOPE)+s[i:]
i=s.index("* Dead code met on the way")
s=s[:i]+"".join("* "+x.lstrip("* ")+"\n" for x in FIND)+s[i:]
open(p,'w').write(s)
with open('/verif/lean/Verif.lean','a') as f:
    for m in IMPORTS: f.write("import Verif.%s\n"%m)
