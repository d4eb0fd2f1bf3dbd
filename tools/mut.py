#!/usr/bin/env python3
"""usage: mut.py batch.py  -- batch defines M = [dict(file, old, new, edit, claim, targets)]"""
import sys, subprocess, json, os, re, time, shutil
SRC='/verif/lean'; DST='/tmp/mut/lean'
def sync():
    subprocess.run(['rsync','-a','--delete',SRC+'/',DST+'/'],check=True) if shutil.which('rsync') else subprocess.run(f'rm -rf {DST}; mkdir -p /tmp/mut; cp -a {SRC} {DST}',shell=True,check=True)
def thm_at(f,line):
    L=open(f).read().split('\n')
    for i in range(min(line,len(L))-1,-1,-1):
        m=re.match(r'^(?:private |noncomputable |@\[[^\]]*\] ?)*(theorem|lemma|def|instance|example|structure|abbrev)\b\s*([^\s:({\[]*)',L[i])
        if m:
            return (m.group(2) or m.group(1)+f'@{i+1}') if m.group(1)!='example' else f'example@{os.path.basename(f)}:{i+1}'
    return f'{f}:{line}'
def run(m):
    f=os.path.join(DST,'Verif',m['file']); s=open(f).read()
    if s.count(m['old'])<1: return ('NOTFOUND',[],[])
    if s.count(m['old'])>1 and not m.get('first'): return ('AMBIG',[],[])
    open(f,'w').write(s.replace(m['old'],m['new'],1))
    t=time.time()
    try:
        r=subprocess.run(['lake','build']+['Verif.'+x for x in m['targets']],cwd=DST,capture_output=True,text=True,timeout=2400)
        out=r.stdout+r.stderr
    finally:
        open(f,'w').write(s)
    fails=[]; 
    for mm in re.finditer(r'^error: (Verif/\S+?\.lean):(\d+):(\d+): (.*)$',out,re.M):
        n=thm_at(os.path.join(DST,mm.group(1)),int(mm.group(2)))
        if n not in fails: fails.append(n)
    mods=re.findall(r'^- (Verif\.\S+)$',out,re.M)
    return ('ok' if r.returncode==0 else 'fail',fails,mods,round(time.time()-t))
if __name__=='__main__':
    ns={}; exec(open(sys.argv[1]).read(),ns)
    res=open('/tmp/w/mut_results.jsonl','a')
    for m in ns['M']:
        if 'defn' not in m: m['defn']=m['file']
        r=run(m)
        rec=dict(definition=m['defn'],file=m['file'],edit=m['edit'],claim_broken=m['claim'],status=r[0],failed=r[1],mods=r[2])
        res.write(json.dumps(rec,ensure_ascii=False)+'\n'); res.flush()
        print(r[0],(r[3] if len(r)>3 else ''),m['defn'],'|',m['edit'],'|',m['claim'],'|',r[1][:14],flush=True)
