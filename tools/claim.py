import sys,json
# usage: claim.py file-with-lines  -> inserts python tuple lines before the closing bracket
p='/verif/tools/manifest.py'
s=open(p).read()
new=sys.stdin.read()
i=s.index("]\nextra=")
s=s[:i]+new.rstrip('\n')+"\n"+s[i:]
open(p,'w').write(s)
