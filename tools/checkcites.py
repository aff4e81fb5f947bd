#!/usr/bin/env python3
"""Check citations `path.rs:A-B `name`` in the models: the named fn/struct/enum/const must be declared within 3 lines of A..B."""
import re,glob,os,sys
os.chdir('/verif/lean/Verif/Model')
files=[f for f in glob.glob('/repo/**/*.rs',recursive=True)]
bad=0
for m in sorted(glob.glob('*.lean')):
    s=open(m).read()
    for x in re.finditer(r'([\w/{},.-]+\.rs):(\d+)(?:-(\d+))?(?:,? ?[\d-]+)* `(\w+)(?:::(\w+))?`',s):
        path,a,b,name,name2=x.groups()
        cands=[f for f in files if f.endswith('/'+path)]
        base=re.findall(r'([\w/-]+)/src',s[:2000])
        a=int(a); b=int(b or a)
        ok=False
        for f in cands:
            L=open(f).read().split('\n')
            seg='\n'.join(L[max(0,a-4):b+3])
            if re.search(r'(fn|struct|enum|const|type|trait|mod)\s+'+(name2 or name)+r'\b',seg) or re.search(r'\b'+(name2 or name)+r'\b',seg): ok=True
        if not ok:
            bad+=1; print(m, s[:x.start()].count('\n')+1, x.group(0)[:100], len(cands))
print(bad,'suspicious')
