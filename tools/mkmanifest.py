#!/usr/bin/env python3
"""Collect theorems named C<nn>_* from lean/Verif/Props and write MANIFEST.json.
Status and notes come from tools/status.json ({id: [status, note]}); default 'proved'."""
import re, json, glob, collections
th = collections.defaultdict(list)
for f in sorted(glob.glob('/verif/lean/Verif/Props/**/*.lean', recursive=True)):
    ns = []
    for line in open(f):
        m = re.match(r'namespace (\S+)', line)
        if m: ns.append(m.group(1))
        m = re.match(r'end (\S+)', line)
        if m and ns and ns[-1] == m.group(1): ns.pop()
        m = re.match(r'(?:private )?theorem (C(\d\d\d?)_\S+)', line)
        if m: th['C' + m.group(2)].append('.'.join(ns + [m.group(1)]))
st = json.load(open('/verif/tools/status.json'))
claims = []
for l in open('/verif/properties.jsonl'):
    i = json.loads(l)['id']
    if i in th:
        s, note = st.get(i, ['proved', ''])
        claims.append({'property': i, 'status': s, 'theorems': th[i], 'note': note})
    elif i in st and st[i][0] == 'not_applicable':
        claims.append({'property': i, 'status': 'not_applicable', 'theorems': [], 'note': st[i][1]})
    else:
        print('no theorem yet:', i)
json.dump({'claims': claims}, open('/verif/MANIFEST.json', 'w'), indent=1, ensure_ascii=False)
print(len(claims), 'claims', sum(len(c['theorems']) for c in claims), 'theorems')
