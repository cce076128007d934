#!/usr/bin/env python3
"""Apply seeded bugs to a scratch copy of the model and record which theorems stop proving.
usage: mutate.py batch.json   (list of {definition,file,old,new,edit,claim,tightened?})"""
import json,subprocess,sys,os,re,shutil
V="/verif/lean"; S="/tmp/mut"
def sync():
    shutil.rmtree(S,ignore_errors=True); subprocess.run(["cp","-a",V,S],check=True)
def enclosing(path,line):
    L=open(path).read().split("\n")
    for i in range(min(line,len(L))-1,-1,-1):
        m=re.match(r"\s*(?:private |protected |noncomputable |@\[[^\]]*\] )*(theorem|lemma|def|instance|example|structure|inductive|abbrev)\b\s*(\S*)",L[i])
        if m: return m.group(2) if m.group(1) in("theorem","lemma","def","abbrev") else m.group(1)+"@%d"%(i+1)
    return "?"
sync()
batch=json.load(open(sys.argv[1]))
for b in batch:
    p=os.path.join(S,"Verif",b["file"])
    orig=open(p).read()
    if orig.count(b["old"])!=1:
        print("BAD PATTERN",orig.count(b["old"]),b["definition"],b["old"][:60]); continue
    open(p,"w").write(orig.replace(b["old"],b["new"]))
    r=subprocess.run(["lake","build"],cwd=S,capture_output=True,text=True)
    out=r.stdout+r.stderr
    failed=[]
    for m in re.finditer(r"^error: (Verif/[\w/]+\.lean):(\d+):",out,re.M):
        t=enclosing(os.path.join(S,m.group(1)),int(m.group(2)))
        if t not in failed: failed.append(t)
    open(p,"w").write(orig)
    rec={"definition":b["definition"],"file":b["file"],"edit":b["edit"],"claim":b["claim"],"failed":failed,"tightened":b.get("tightened",[])}
    print(("CAUGHT " if r.returncode else "SURVIVED "),b["definition"],b["edit"],failed[:6])
    if r.returncode or b.get("log_survivor"):
        open("/verif/seeded/LOG.jsonl","a").write(json.dumps(rec)+"\n")
