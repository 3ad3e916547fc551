import json
P={}
for l in open('/verif/properties.jsonl'):
    p=json.loads(l); P[p['id']]=p
man=json.load(open('/verif/MANIFEST.json'))
head=open('/verif/tools/design_head.md').read()
how=json.load(open('/verif/tools/design_how.json'))
out=[head,"\n## Properties: what is modelled, how it is proved, status\n\n",
"`partial` with a `_refuted` theorem means: the property as stated is false of the code (see section 5), the refuting theorem is a kernel-checked\nexecution of the model, and the `_partial` theorem is the strongest guarded version proved.\n\n",
"| id | property | modelled / proved how | status | theorems |\n|---|---|---|---|---|\n"]
for c in man['claims']:
    i=c['property']
    out.append("| %s | %s | %s | %s | %s |\n"%(i,P[i]['title'],how.get(i,''),c['status'],', '.join('`%s`'%t.replace('SLM.','') for t in c['theorems'])))
missing=[i for i in P if i not in how]
print('no how:',missing)
open('/verif/DESIGN.md','w').write(''.join(out))
