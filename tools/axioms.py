"""Regenerate /verif/AXIOMS.md: the axioms each theorem in MANIFEST.json depends on (needs a built project)."""
import json,subprocess,re
m=json.load(open('/verif/MANIFEST.json'));ns=[]
for c in m['claims']:
    for t in c['theorems']:
        if t not in ns: ns.append(t)
open('/tmp/ax.lean','w').write("import Verif\n"+"\n".join("#print axioms "+n for n in ns))
o=subprocess.run(['lake','env','lean','/tmp/ax.lean'],cwd='/verif/lean',capture_output=True,text=True).stdout
o=re.sub(r'\n ',' ',o)
rows=[]
for n in ns:
    q=re.search(r"'%s' depends on axioms: \[([^\]]*)\]"%re.escape(n),o)
    rows.append((n,' '.join(q.group(1).split()) if q else ('none' if "'%s' does not depend"%n in o else '?')))
open('/verif/AXIOMS.md','w').write("# Axioms of each theorem (output of `#print axioms`)\n\n"+"".join("* `%s`: %s\n"%r for r in rows))
print(len(rows),set(r[1] for r in rows))
