#!/usr/bin/env python3
"""Regenerate MANIFEST.json: theorem names are read from lean/Verif/Props, status and notes from tools/status.json."""
import glob, json, os, re
root = os.path.dirname(os.path.dirname(os.path.abspath(__file__)))
names = {}
for f in sorted(glob.glob(root + '/lean/Verif/Props/*.lean')):
    ns = []
    for line in open(f):
        m = re.match(r'namespace (\S+)', line)
        if m:
            ns.append(m[1])
        m = re.match(r'end (\S+)', line)
        if m and ns and ns[-1] == m[1]:
            ns.pop()
        m = re.match(r"theorem (C(\d+)_\w+'?)", line)
        if m:
            names.setdefault('C%02d' % int(m[2]), []).append('.'.join(ns + [m[1]]))
status = json.load(open(root + '/tools/status.json'))
claims = []
for line in open(root + '/properties.jsonl'):
    pid = json.loads(line)['id']
    st, note = status.get(pid, [None, ''])
    th = names.get(pid, [])
    if not th and st != 'not_applicable':
        print(pid, end=' ')
        continue
    if st is None:
        st, note = ('partial', 'not yet modelled') if not th else ('partial', 'in progress')
    claims.append({'property': pid, 'status': st, 'theorems': th, 'note': note})
json.dump({'claims': claims}, open(root + '/MANIFEST.json', 'w'), indent=1)
for c in claims:
    if c['note'] in ('in progress', 'not yet modelled'):
        print('todo note', c['property'])
