import re,random,subprocess,os,shutil,json,sys
S='/tmp/auto/lean'
shutil.rmtree(S,ignore_errors=True); subprocess.run(['cp','-a','/verif/lean',S],check=True)
random.seed(int(sys.argv[1]) if len(sys.argv)>1 else 7)
files=sys.argv[2].split(',') if len(sys.argv)>2 else None
MODS=['Dmm/Keys','Dmm/Text','Dmi/Dir','Dmi/Metadata','Dmi/Composite','Dmi/Render','Editor/History','Editor/MapRepr','Editor/Save','Langserver/Document','Langserver/Jrpc','Const/Model','Context/Model','Indents/Model','IntervalTree/Model','Lexer/Model','Objtree/Model','Parse/Model','Preproc/Model','Check/SwitchRandModel','Docs/Model','Langserver/SearchModel','Langserver/ColorModel','CallTree/Model']
if files: MODS=files
RULES=[(r' < ',' ≤ '),(r' ≤ ',' < '),(r' \+ 1\b',''),(r' - 1\b',''),(r'\btrue\b','false'),(r'\bfalse\b','true'),(r' && ',' || '),(r' \|\| ',' && '),(r' ∧ ',' ∨ '),(r'\.1\b','.2'),(r'\.2\b','.1'),(r' = ',' ≠ '),(r' == ',' != '),(r' != ',' == '),(r'\bif (.*?) then (.+?) else (.+)$',r'if \1 then \3 else \2'),(r' \+ ',' - '),(r' - ',' + '),(r'some (\w+)$','none'),(r' > ',' ≥ '),(r' ≥ ',' > '),(r'\b0\b','1'),(r'\b1\b','2'),(r'\.take ','.drop '),(r'\.tail','')]
muts=[]
for m in MODS:
    src=open(f'{S}/Verif/{m}.lean').read().split('\n')
    cur=None; incom=False; L=[]
    for i,l in enumerate(src):
        g=re.match(r'^(?:@\[.*?\] )?(?:partial )?(def|theorem|structure|inductive|instance|example|abbrev|namespace|end|variable|/-)\s*(\S*)',l)
        if l.startswith('/-') : incom=True
        if incom:
            if '-/' in l: incom=False
            cur=None if l.startswith('/-') else cur
            continue
        if g: cur=g.group(2) if g.group(1)=='def' else None
        if cur:
            body=l
            start=0
            if g and ':=' in l: start=l.index(':=')+2
            elif g: continue
            for a,b in RULES:
                for mm in re.finditer(a,l[start:]):
                    s0=start+mm.start(); e0=start+mm.end()
                    new=l[:s0]+mm.expand(b)+l[e0:]
                    if new!=l: L.append((m,cur,i,l,new))
    random.shuffle(L)
    n=max(8,min(40,len(L)//6))
    muts+=L[:n]
random.shuffle(muts)
print(len(muts),flush=True)
for (m,cur,i,old,new) in muts:
    p=f'{S}/Verif/{m}.lean'; src=open(p).read(); ls=src.split('\n'); ls[i]=new
    open(p,'w').write('\n'.join(ls))
    try:
        r=subprocess.run(['taskset','-c','3','nice','-n','19','lake','build'],cwd=S,capture_output=True,text=True,timeout=1500)
        out=r.stdout+r.stderr; rc=r.returncode
    except subprocess.TimeoutExpired: out='timeout'; rc=9
    failed=[];modelfail=False
    for f,l in re.findall(r'error: (\S+\.lean):(\d+):\d+',out):
        lines=open(os.path.join(S,f)).read().split('\n')
        nm=None
        for k in range(int(l)-1,-1,-1):
            g=re.match(r'^(?:private )?(?:@\[.*?\] )?(?:noncomputable )?(theorem|example|def|instance|lemma)\s*(\S*)',lines[k])
            if g: nm=(g.group(1)+' '+(g.group(2) if g.group(1)!='example' else f'@{f}:{k+1}')); break
        if f.endswith(m+'.lean') and nm and nm.startswith('def'): modelfail=True
        if nm and nm not in failed: failed.append(nm)
    st='INVALID' if modelfail else ('SURVIVED' if rc==0 else ('TIMEOUT' if rc==9 else 'killed'))
    if st=='killed' and all(x.startswith('example') for x in failed): st='EXONLY'
    print(json.dumps(dict(st=st,file=m,d=cur,line=i+1,old=old.strip(),new=new.strip(),failed=failed[:8])),flush=True)
    open(p,'w').write(src)
