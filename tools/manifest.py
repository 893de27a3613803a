#!/usr/bin/env python3
"""Regenerate MANIFEST.json from the theorem names in lean/Verif/Props and the notes below."""
import json, re, glob, os
root = os.path.dirname(os.path.dirname(os.path.abspath(__file__)))
names = {}
for f in sorted(glob.glob(root + '/lean/Verif/Props/*.lean')):
    for n in re.findall(r'^theorem (C\d{2,3}_\S+)', open(f).read(), re.M):
        names.setdefault(n.split('_')[0], []).append('Renplex.' + n)
notes = json.load(open(root + '/tools/notes.json'))
claims = []
for line in open(root + '/properties.jsonl'):
    pid = json.loads(line)['id']
    ths = names.get(pid, [])
    note = notes.get(pid, '')
    if not ths and not note:
        continue
    partial = any('_partial' in t or '_refuted' in t for t in ths)
    status = 'partial' if partial else ('proved' if ths else 'not_applicable')
    claims.append({'property': pid, 'status': status, 'theorems': ths, 'note': note})
json.dump({'claims': claims}, open(root + '/MANIFEST.json', 'w'), indent=1)
print(len(claims), 'claims')
