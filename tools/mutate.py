#!/usr/bin/env python3
"""Mutation runner. usage: mutate.py MUTANTS.py OUT.jsonl [workdir]
MUTANTS.py evaluates to a list of (definition, model file, old text, new text, claim broken).
Works in a scratch copy of /verif/lean (outside /verif); each mutant is applied to the model, everything is rebuilt,
and the theorems whose proofs fail are recorded. A mutant with no failing theorem is a survivor."""
import sys, subprocess, re, json, os, shutil
src=os.environ.get('MUT_SRC','/verif/lean')
muts=eval(open(sys.argv[1]).read()); out=sys.argv[2]; wd=sys.argv[3] if len(sys.argv)>3 else '/tmp/mut/a'
os.makedirs(wd,exist_ok=True)
subprocess.run(['rsync','-a','--delete',src+'/',wd+'/'],check=True) if shutil.which('rsync') else (shutil.rmtree(wd),shutil.copytree(src,wd,symlinks=True))
done=set()
if os.path.exists(out):
    for l in open(out): done.add(json.loads(l)['key'])
def enclosing(f,line):
    name='?'
    try: ls=open(f'{wd}/{f}').read().split('\n')
    except Exception: return f
    for i in range(min(line,len(ls))-1,-1,-1):
        m=re.match(r'\s*(?:private |protected |@\[[^\]]*\] *)*(theorem|def|example|instance|structure|inductive|lemma)\b\s*([^\s:({\[]*)',ls[i])
        if m: return (m.group(2) or m.group(1)+f'@{os.path.basename(f)}:{i+1}')
    return name
for (d,f,old,new,claim) in muts:
    key=f'{d}|{f}|{old}|{new}'
    if key in done: continue
    p=f'{wd}/Verif/Model/{f}.lean'
    orig=open(f'{src}/Verif/Model/{f}.lean').read()
    n=orig.count(old)
    if n!=1:
        print('BAD COUNT',n,d,repr(old)); continue
    open(p,'w').write(orig.replace(old,new))
    r=subprocess.run(['lake','build']+os.environ.get('MUT_TARGETS','').split(),cwd=wd,capture_output=True,text=True)
    txt=r.stdout+r.stderr
    errs=[]
    for m in re.finditer(r'error: (Verif/\S+\.lean):(\d+):(\d+): ?(.*)',txt):
        nme=enclosing(m.group(1),int(m.group(2)))
        if nme not in errs: errs.append(nme)
    mods=sorted(set(re.findall(r'^- (Verif\.\S+)',txt,re.M)))
    open(p,'w').write(orig)
    modelbroken=any(x.startswith('Verif.Model') for x in mods)
    status='invalid' if modelbroken else ('killed' if errs or r.returncode else 'SURVIVED')
    rec=dict(key=key,definition=d,file=f'Verif/Model/{f}.lean',edit=f'{old}  ==>  {new}',claim=claim,status=status,failed=errs[:25],modules=mods)
    open(out,'a').write(json.dumps(rec,ensure_ascii=False)+'\n')
    print(status,d,'|',claim,'|',errs[:4],flush=True)
