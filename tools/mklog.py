import json
T={('randInt','state not advanced'):['c25_rand_int_advances'],
('CDData.pick','random index shifted (still a valid index)'):['c24_cycle_count'],
('CDData.loop','n_iter off by one'):['c24_cycle_count'],
('CDData.loop','last iteration not checked'):['c24_warns_iff'],
('irlsStep','cycles not accumulated'):['c32_cycles'],
}
import os
if os.path.exists('/tmp/w/tight.json'):
    for k,v in json.load(open('/tmp/w/tight.json')).items(): T[tuple(k.split('||'))]=v
N={}
if os.path.exists('/tmp/w/notes.json'):
    for k,v in json.load(open('/tmp/w/notes.json')).items(): N[tuple(k.split('||'))]=v
out=[]
for l in open('/tmp/w/mut_results.jsonl'):
    r=json.loads(l)
    if r['status'] in('AMBIG','NOTFOUND'): continue
    k=(r['definition'],r['edit'])
    d=dict(definition=r['definition'],file='lean/Verif/'+r['file'],edit=r['edit'],claim_broken=r['claim_broken'],
      result='killed' if r['status']=='fail' else 'survived',theorems_failed=r['failed'],theorems_tightened=T.get(k,[]) if r['status']=='ok' else [])
    if k in N: d['note']=N[k]
    out.append(json.dumps(d,ensure_ascii=False))
open('/verif/seeded/LOG.jsonl','w').write('\n'.join(out)+'\n')
s=[json.loads(x) for x in out]
print(len(s),'attempts; unresolved survivors:')
for d in s:
    if d['result']=='survived' and not d['theorems_tightened'] and 'note' not in d: print('  ',d['definition'],'|',d['edit'],'|',d['claim_broken'])
