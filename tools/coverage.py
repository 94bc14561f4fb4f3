#!/usr/bin/env python3
"""For each function of /repo/src, tell whether a model comment cites lines inside it."""
import re,glob,os
cites={}
for f in glob.glob('/verif/lean/Verif/**/*.lean',recursive=True):
    txt=open(f).read()
    cur=None
    for m in re.finditer(r'(src/[a-z_]+\.rs):?|(?<![\w.])(\d+)(?:-(\d+))?',txt):
        pass
    for m in re.finditer(r'(src/[a-z_/]+\.rs):((?:\d+(?:-\d+)?(?:, ?)?)+)',txt):
        for r in re.findall(r'(\d+)(?:-(\d+))?',m.group(2)):
            a=int(r[0]); b=int(r[1] or r[0]); cites.setdefault(m.group(1),[]).append((a,b))
for f in sorted(glob.glob('/repo/src/*.rs')):
    lines=open(f).read().split('\n')
    rel='src/'+os.path.basename(f)
    cs=cites.get(rel,[])
    out=[]
    for i,l in enumerate(lines,1):
        m=re.match(r'\s*(?:pub(?:\([a-z]+\))?\s+)?(?:const\s+)?fn\s+(\w+)',l)
        if m:
            # end: matching brace
            d=0; j=i-1; started=False
            while j<len(lines):
                d+=lines[j].count('{')-lines[j].count('}')
                if '{' in lines[j]: started=True
                if started and d<=0: break
                if not started and lines[j].rstrip().endswith(';'): break
                j+=1
            out.append((m.group(1),i,j+1))
    print(rel,len(lines))
    for n,a,b in out:
        hit=any(x<=b and y>=a for x,y in cs)
        if not hit: print('   not cited:',n,a,b)
