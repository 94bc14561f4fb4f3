#!/usr/bin/env python3
"""Writes AXIOMS.md: the axioms each theorem of the manifest depends on (run after `lake build`)."""
import json,subprocess,re
m=json.load(open('/verif/MANIFEST.json'))
ths=[(c['property'],t) for c in m['claims'] for t in c['theorems']]
src='import Verif\n'+'\n'.join('#print axioms '+t for t in sorted({t for _,t in ths}))
open('/tmp/axioms.lean','w').write(src)
out=subprocess.run(['lake','env','lean','/tmp/axioms.lean'],cwd='/verif/lean',capture_output=True,text=True).stdout
ax={}
for x in re.finditer(r"'([^']+)' (?:depends on axioms: \[([^\]]*)\]|does not depend on any axioms)",out):
    ax[x.group(1)]=re.sub(r'\s+',' ',x.group(2) or '')
with open('/verif/AXIOMS.md','w') as f:
    f.write('# Axioms per theorem\n\nGenerated by `tools/axioms.py` from `#print axioms`.\n\n| property | theorem | axioms |\n|---|---|---|\n')
    for p,t in ths:
        f.write('| %s | `%s` | %s |\n'%(p,t,ax[t] or 'none'))
bad={a for v in ax.values() for a in v.split(', ') if a}-{'propext','Classical.choice','Quot.sound'}
print(len(ths),'theorems; other axioms:',bad or 'none')
