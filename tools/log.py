"""Convert raw mutation results (run.py output) to seeded/LOG.jsonl.
usage: log.py raw.jsonl...   (keeps hand-written entries, i.e. those without "id", at the end)"""
import json,sys,os
out='/verif/seeded/LOG.jsonl'
old=[json.loads(l) for l in open(out)] if os.path.exists(out) else []
tight={}
tf='/verif/seeded/tightened.json'
if os.path.exists(tf): tight=json.load(open(tf))
rows=[]
for p in sys.argv[1:]:
    for l in open(p):
        r=json.loads(l)
        if 'error' in r: continue
        cf=r.get('claimFailed')
        e={'id':r['id'],'definition':f"{r['file']}: {r['definition']}",
           'edit':f"{r['desc']}  ({r['old'].strip()} -> {r['new'].strip()})",
           'claim_broken':r['claims'],
           'theorems_failed':cf if cf is not None else r.get('failed',[]),
           'directly_failing_declarations':r.get('failed',[]),
           'still_proving_of_the_broken_claims':r.get('survived',{}),
           'theorems_tightened':tight.get(r['id'],{}).get('tightened',[])}
        n=tight.get(r['id'],{}).get('note')
        if cf is None: e['note']='edited model did not elaborate to the end; only direct failures listed'
        if n: e['note']=n
        rows.append(e)
ids={r['id'] for r in rows}
rows+= [o for o in old if o.get('id') not in ids and (o.get('id') is None)]
open(out,'w').write(''.join(json.dumps(r,ensure_ascii=False)+'\n' for r in rows))
print(len(rows))
