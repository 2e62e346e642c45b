#!/usr/bin/env python3
# usage: seed.py muts.json ; each: {file, def, old, new, edit, claim, target(optional module)}
import json,sys,subprocess,re,os,shutil
S='/tmp/seed/lean'
def sync():
    shutil.rmtree(S,ignore_errors=True); subprocess.run(['cp','-a','/verif/lean',S],check=True)
muts=json.load(open(sys.argv[1]))
log='/verif/seeded/LOG.jsonl'
os.makedirs('/verif/seeded',exist_ok=True)
sync()
for m in muts:
    p=f"{S}/Verif/{m['file']}"
    src=open(p).read()
    assert src.count(m['old'])>=1,(m['file'],m['old'])
    if src.count(m['old'])>1 and not m.get('multi'): print('AMBIG',m['old']); continue
    open(p,'w').write(src.replace(m['old'],m['new'],1))
    r=subprocess.run(['lake','build'],cwd=S,capture_output=True,text=True)
    out=r.stdout+r.stderr
    failed=[]
    for f,l in re.findall(r'error: (\S+\.lean):(\d+):\d+',out):
        lines=open(os.path.join(S,f)).read().split('\n')
        nm=None
        for k in range(int(l)-1,-1,-1):
            g=re.match(r'^(?:private )?(?:@\[.*?\] )?(?:noncomputable )?(theorem|example|def|instance|lemma)\s*(\S*)',lines[k])
            if g: nm=(g.group(2) if g.group(1)!='example' else f'example@{f}:{k+1}'); break
        if nm and nm not in failed: failed.append(nm)
    rec=dict(definition=m['def'],edit=m['edit'],claim=m['claim'],failed=failed,tightened=[],builds=(r.returncode==0))
    if r.returncode==0: print('!!! SURVIVED',m['def'],m['edit'])
    else: print('killed',m['def'],'|',m['edit'],'|',failed[:6])
    if not m.get('dry'): open(log,'a').write(json.dumps(rec)+'\n')
    open(p,'w').write(src)
    sys.stdout.flush()
